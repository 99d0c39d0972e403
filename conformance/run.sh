#!/bin/sh
# Reads the test data of /repo, runs the functions of the model on it, prints the disagreements.  Needs a built /verif/lean.
set -e
cd "$(dirname "$0")"
python3 gen_json.py
python3 gen_literals.py
cd ../lean
lake env lean --run ../conformance/Conf.lean.txt
lake env lean --run ../conformance/ConfProof.lean.txt
rm -f ../conformance/vec.txt ../conformance/vec2.txt
