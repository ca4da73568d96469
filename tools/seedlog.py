#!/usr/bin/env python3
"""Convert the results of the mutation runs (JSON lines, scratch directory) to seeded/LOG.jsonl."""
import json, glob, os, sys
here = os.path.dirname(os.path.abspath(__file__))
tight = json.load(open(os.path.join(here, 'tightened.json')))
out = []
seen = set()
# later batches override earlier runs of the same mutant
order = sorted(glob.glob('/tmp/mut/b/b*.res'), key=lambda f: int(os.path.basename(f)[1:-4])) + sorted(glob.glob('/tmp/mut/b/c*.res'))
recs = {}
for f in order:
    for l in open(f):
        d = json.loads(l)
        k = (d['file'], d['defn'], d['old'], d['new'])
        if k in recs and not d['fails'] and not os.path.basename(f).startswith('b'):
            continue
        if k in recs and os.path.basename(f).startswith('c') and not recs[k]['fails'] and d['fails']:
            recs[k] = d
        elif k in recs and recs[k]['fails']:
            continue
        else:
            recs.setdefault(k, d)
# which claims use a theorem (dump of the dependencies, scratch directory)
uses = {}
if os.path.exists('/tmp/mut/deps.json'):
    for e in json.load(open('/tmp/mut/deps.json')):
        nm = e['thm'].split('.')[-1]
        uses.setdefault(nm, set()).add(nm)
        for x in e['deps']: uses.setdefault(x.split('.')[-1], set()).add(nm)
for k, d in recs.items():
    fails = [n for p, n in d['fails']]
    if fails and not d['claims']:
        d['claims'] = sorted({c for n in fails for c in uses.get(n, ())})
    rec = dict(definition='%s:%s' % (d['file'], d['defn']), edit=d['edit'], old=d['old'], new=d['new'], claim=d['claim'],
               theorems_failed=fails, claims_no_longer_proved=d['claims'], theorems_tightened=[])
    key = d['id'] + '@' + d['file']
    if not fails:
        rec['result'] = 'survived'
    else:
        rec['result'] = 'killed'
    if key in tight:
        rec.update(tight[key])
    out.append(rec)
with open(os.path.join(here, '..', 'seeded', 'LOG.jsonl'), 'w') as fh:
    for r in out:
        fh.write(json.dumps(r, ensure_ascii=False) + '\n')
print(len(out), sum(r['result'] == 'survived' for r in out))
for r in out:
    if r['result'] == 'survived': print(r['definition'], '|', r['edit'], '|', r['theorems_tightened'], r.get('note'))
