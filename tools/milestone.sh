#!/bin/sh
# regenerate derived files, build, commit and check: tools/milestone.sh "message"
cd /verif && python3 tools/gen_properties.py && sh tools/gen_root.sh && python3 tools/gen_manifest.py || exit 1
(cd lean && lake build) > /tmp/ms.build 2>&1; rc=$?
grep -E "^error|✖|Build completed" /tmp/ms.build | head -20
[ $rc -eq 0 ] || { echo "build failed, not committed"; exit 1; }
git add -A && git commit -qm "$1" && vcheck 2>&1 | tail -25
