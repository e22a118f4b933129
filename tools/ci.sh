#!/bin/sh
# build, regenerate the manifest, commit, check
cd /verif || exit 1
grep -rn "sorry" lean/Verif && exit 1
tools/genroot.sh
(cd lean && lake build > /tmp/build.log 2>&1) || { grep -A20 "^error" /tmp/build.log | head -60; exit 1; }
python3 tools/manifest.py
git add -A && git commit -qm "$1" && vcheck | tail -c 300
