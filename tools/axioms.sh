#!/bin/bash
# needs a complete build; writes /tmp/ax.out and AXIOMS.md
cd /verif/lean
python3 - <<'PY'
import json
m=json.load(open('/verif/MANIFEST.json'))
open('/tmp/ax.lean','w').write("import Verif\n"+"".join("#print axioms %s\n" % t for c in m['claims'] for t in c['theorems']))
PY
lake env lean /tmp/ax.lean > /tmp/ax.out 2>&1
python3 /verif/tools/design.py
