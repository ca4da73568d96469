#!/bin/bash
# regenerate generated files and commit
set -e
cd /verif
python3 tools/gen_properties.py
python3 tools/manifest.py
(cd lean && find Verif -name '*.lean' | sort | sed 's/\.lean$//; s#/#.#g; s/^/import /' > Verif.lean)
python3 tools/design.py
git add -A
git commit -qm "$1"
