import json,re,sys
D='/repo/lib/python-bitcoinlib/bitcoin/tests/data/'
src=open('/repo/lib/python-bitcoinlib/bitcoin/core/script.py').read()
names={}
for m in re.finditer(r"^(OP_\w+) = CScriptOp\((0x[0-9a-f]+)\)",src,re.M): names[m.group(1)]=int(m.group(2),16)
# names in the table OPCODES_BY_NAME
tab=src[src.index('OPCODES_BY_NAME = {'):]; tab=tab[:tab.index('}')]
by={}
for m in re.finditer(r"'(OP_\w+)' *: *(OP_\w+)",tab):
    by[m.group(1)]=names[m.group(2)]; by[m.group(1)[3:]]=names[m.group(2)]
def push(d):
    n=len(d)
    if n<0x4c: return bytes([n])+d
    if n<=0xff: return b'\x4c'+bytes([n])+d
    if n<=0xffff: return b'\x4d'+n.to_bytes(2,'little')+d
    return b'\x4e'+n.to_bytes(4,'little')+d
def num(v):
    if v==0: return b''
    a=abs(v); b=a.to_bytes((a.bit_length()+7)//8,'little')
    if b[-1]&0x80: b+=bytes([0x80 if v<0 else 0])
    elif v<0: b=b[:-1]+bytes([b[-1]|0x80])
    return b
def parse(s):
    r=b''
    for w in s.split():
        if w.isdigit() or (w[0]=='-' and w[1:].isdigit()):
            v=int(w)
            if v==-1: r+=b'\x4f'
            elif v==0: r+=b'\x00'
            elif 1<=v<=16: r+=bytes([0x50+v])
            else: r+=push(num(v))
        elif w.startswith('0x') and set(w[2:])<=set('0123456789abcdefABCDEF'): r+=bytes.fromhex(w[2:])
        elif len(w)>=2 and w[0]=="'" and w[-1]=="'": r+=push(w[1:-1].encode())
        elif w in by: r+=bytes([by[w]])
        else: raise ValueError(w)
    return r
out=[]
for f,e in (('script_valid',1),('script_invalid',0)):
    for t in json.load(open(D+f+'.json')):
        out.append(('S',str(e),'x'+parse(t[0]).hex(),'x'+parse(t[1]).hex()))
for f,e in (('checkblock_valid',1),('checkblock_invalid',0)):
    for t in json.load(open(D+f+'.json')):
        if len(t)==1: continue
        out.append(('B',str(e),str(int(t[1])),str(int(t[2])),str(t[3]),'x'+t[4].lower()))
for f,e in (('tx_valid',1),('tx_invalid',0)):
    for t in json.load(open(D+f+'.json')):
        if len(t)==1: continue
        l=['T',str(e),'x'+t[1].lower(),str(int(t[2]))]
        for h,n,s in t[0]:
            if n==-1: n=0xffffffff
            l+=['x'+bytes.fromhex(h)[::-1].hex(),str(n),'x'+parse(s).hex()]
        out.append(tuple(l))
for t in json.load(open(D+'base58_encode_decode.json')):
    if len(t)==2: out.append(('E','x'+t[0],'y'+t[1]))
open('vec.txt','w').write('\n'.join(' '.join(l) for l in out)+'\n')
print(len(out))
