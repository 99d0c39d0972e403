import re
T='/repo/lib/python-bitcoinlib/bitcoin/tests/'
core=open(T+'test_core.py').read()
out=[]
for m in re.finditer(r"CBlock\.deserialize\(x\('([0-9a-f]+)'\)\)\s+self\.assertEqual\(block\.calc_merkle_root\(\), lx\('([0-9a-f]+)'\)\)",core):
    out.append(('M','x'+m.group(1),'x'+bytes.fromhex(m.group(2))[::-1].hex()))
w=open(T+'test_wallet.py').read()
for m in re.finditer(r"T\('([1-9A-Za-z]+)',\s+x\('([0-9a-f]+)'\), (\d),",w): out.append(('A','y'+m.group(1),'x'+m.group(2),m.group(3)))
i=w.index('def test_from_scriptPubKey'); 
for m in re.finditer(r"T\('([0-9a-f]+)', '([1-9A-Za-z]+)',\s+P2",w): out.append(('FS','x'+m.group(1),'y'+m.group(2)))
a=w.index('def test_from_nonstd_scriptPubKey'); b=w.index('def test_to_scriptPubKey')
for m in re.finditer(r"CScript\(x\('([0-9a-f]+)'\)\)",w[a:b]): out.append(('FN','x'+m.group(1)))
for m in re.finditer(r"T\('([1-9A-Za-z]+)',\s+'([0-9a-f]+)'\)",w[b:w.index('class Test_P2SH')]): out.append(('TS','y'+m.group(1),'x'+m.group(2)))
a=w.index('def test_from_non_canonical'); b=w.index('def test_from_bare'); c=w.index('def test_from_valid_pubkey')
for m in re.finditer(r"T\('([0-9a-f]+)', '([1-9A-Za-z]+)'\)",w[a:b]): out.append(('NC','x'+m.group(1),'y'+m.group(2)))
for m in re.finditer(r"T\('([0-9a-f]+)', '([1-9A-Za-z]+)'\)",w[b:c]): out.append(('BC','x'+m.group(1),'y'+m.group(2)))
for m in re.finditer(r"T\((?:CPubKey\()?x\('([0-9a-f]*)'\)\)?,\s+'([1-9A-Za-z]+)'\)",w[c:]): out.append(('PK','x'+m.group(1),'y'+m.group(2)))
for m in re.finditer(r"T\('([5L]\w+)',\s+'([0-9a-f]+)',\s+(True|False)",w): out.append(('SK','y'+m.group(1),'x'+m.group(2),m.group(3)))
bl=open(T+'test_bloom.py').read()
for m in re.finditer(r'T\(0x([0-9a-f]+), 0x([0-9a-fA-F]+), "([0-9a-f]*)"\)',bl): out.append(('MU',str(int(m.group(1),16)),str(int(m.group(2),16)),'x'+m.group(3)))
s=open(T+'test_script.py').read()
def E(x): return eval(x)
def sect(n):
    a=s.index('def '+n+'('); b=s.find('\n    def ',a+5); return s[a:b if b>0 else len(s)]
def grab(n,kind):
    for m in re.finditer(r"\bT\(('[^)]*?), (True|False)\)",sect(n)): out.append((kind,'x'+E(m.group(1)).lower(),m.group(2)))
grab('test_is_p2sh','P2'); grab('test_is_push_only','PO'); grab('test_has_canonical_pushes','HC'); grab('test_is_unspendable','UN'); grab('test_is_valid','VA')
for n,k in (('test_is_push_only_on_invalid_pushdata','PO'),('test_has_canonical_pushes_with_invalid_truncated_script','HC'),('test_invalid_scripts','VA')):
    for m in re.finditer(r"\bT\(('[^)]*?)\)",sect(n)): out.append((k,'x'+E(m.group(1)).lower(),'False'))
for m in re.finditer(r"\bT\(('[^,)]*), ('[^)]*)\)",sect('test_pushdata')): out.append(('PD','x'+E(m.group(1)),'x'+E(m.group(2))))
ser=open(T+'test_serialize.py').read()
a=ser.index('class Test_VarInt'); b=ser.index('def test_non_optimal'); c=ser.index('def test_truncated')
for m in re.finditer(r"T\((0x[0-9a-f]+), b'([0-9a-f]+)'\)",ser[a:b]): out.append(('VI',str(int(m.group(1),16)),'x'+m.group(2)))
for m in re.finditer(r"T\(b'([0-9a-f]+)', (\w+)\)",ser[b:c]): out.append(('VD','x'+m.group(1),str(int(m.group(2),0))))
for m in re.finditer(r"T\(b'([0-9a-f]*)'\)",ser[c:ser.index('class Test_BytesSer')]): out.append(('VT','x'+m.group(1)))
open('vec2.txt','w').write('\n'.join(' '.join(l) for l in out)+'\n')
from collections import Counter
print(len(out),Counter(l[0] for l in out))
