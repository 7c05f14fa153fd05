#!/bin/sh
# build everything, regenerate MANIFEST.json, check axioms; usage: tools/milestone.sh "commit message"
set -e
cd "$(dirname "$0")/.."
tools/gen_root.sh
python3 tools/props.py
(cd lean && lake build > /tmp/milestone.out 2>&1) || { grep -A25 "error" /tmp/milestone.out | head -60; exit 1; }
python3 tools/manifest.py
python3 tools/coverage.py > /dev/null
tools/axioms.sh
git add -A
git commit -qm "$1" || true
