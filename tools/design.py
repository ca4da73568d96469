"""Regenerate the generated parts of DESIGN.md (after the marker) and AXIOMS.md from status.json, MANIFEST.json and /tmp/ax.out.
/tmp/ax.out is the output of `lake env lean` on a file with `import Verif` and one `#print axioms` line per theorem (tools/axioms.sh)."""
import json, os, re
here = os.path.dirname(os.path.abspath(__file__))
root = os.path.join(here, '..')
st = json.load(open(os.path.join(here, 'status.json')))
man = {c['property']: c for c in json.load(open(os.path.join(root, 'MANIFEST.json')))['claims']}
props = {}
for l in open(os.path.join(root, 'properties.jsonl')):
    q = json.loads(l); props[q['id']] = q
MARK = '<!-- generated below -->'
p = os.path.join(root, 'DESIGN.md')
s = open(p).read().split(MARK)[0].rstrip() + '\n\n' + MARK + '\n\n'
s += '## Results\n\n| id | property | status | remarks (what is missing, what is refuted) |\n|---|---|---|---|\n'
for k in sorted(props):
    v = st.get(k, ['?', ''])
    s += '| %s | %s | %s | %s |\n' % (k, props[k]['title'].replace('|', '\\|'), v[0], v[1].replace('|', '\\|').replace('\n', ' '))
open(p, 'w').write(s)
if os.path.exists('/tmp/ax.out'):
    ax = {}
    for l in open('/tmp/ax.out'):
        m = re.match(r"'([^']+(?:'[^']*)*)' (does not depend on any axioms|depends on axioms: \[(.*)\])", l)
        if m: ax[m.group(1)] = m.group(3) or 'none'
    with open(os.path.join(root, 'AXIOMS.md'), 'w') as f:
        f.write('# Axioms used by each theorem of MANIFEST.json (output of `#print axioms`)\n\n')
        for k in sorted(man):
            f.write('## %s\n\n' % k)
            for t in man[k]['theorems']:
                f.write('* `%s`: %s\n' % (t, ax.get(t, '?')))
            f.write('\n')
