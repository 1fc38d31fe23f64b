#!/bin/bash
# regenerate the root module and the manifest, build, commit, vcheck
set -e
cd /verif/lean
(ls Verif/Props/*.lean | sed 's/.lean$//; s#/#.#g; s/^/import /') > Verif.lean
lake build > /tmp/ms.log 2>&1 || { grep -E "error" /tmp/ms.log | head; exit 1; }
grep -E "warning.*declaration uses|Build completed" /tmp/ms.log
cd /verif
python3 tools/props.py > properties.jsonl
python3 tools/manifest.py | tr '\n' ';'
python3 tools/axioms.py
python3 tools/coverage.py --md > COVERAGE.md
git add -A && git commit -qm "$1" || true
vcheck 2>&1 | tail -1
