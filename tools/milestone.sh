#!/bin/sh
# Regenerate the root module and the manifest, build, check axioms and commit.
set -e
cd /verif
tools/root.sh
cd lean
lake build > /tmp/build.log 2>&1 || { grep -v "^✔\|^ℹ\|^trace\|^⚠" /tmp/build.log | head -60; echo BUILD FAILED; exit 1; }
python3 ../tools/manifest.py
lake env lean /tmp/axioms.lean > /tmp/ax.log 2>&1 || { head -20 /tmp/ax.log; exit 1; }
if sed "s/^'.*' depends on axioms: \[//; s/^'.*' does not depend on any axioms//; s/propext//g; s/Quot\.sound//g; s/Classical\.choice//g" /tmp/ax.log | grep '[A-Za-z]'; then echo AXIOMS; exit 1; fi
cd ..
git add -A
git commit -q $2 -m "$1"
git log --oneline | head -1
