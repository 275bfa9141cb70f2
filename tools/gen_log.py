#!/usr/bin/env python3
"""Convert the results of the mutation runs (one JSON object per line) into seeded/LOG.jsonl."""
import json, sys

tightened = json.load(open('/verif/tools/tightened.json'))
seen = {}
for line in open(sys.argv[1]):
    r = json.loads(line)
    seen[r['id']] = r
with open('/verif/seeded/LOG.jsonl', 'w') as out:
    for i in sorted(seen):
        r = seen[i]
        model = [e for e in r['errs'] if r['file'].split('/')[-1][:-5] + ':' in e and '/Model/' in r['file']]
        o = {'id': i, 'definition': r['def'], 'file': r['file'], 'edit': r['edit'], 'claim_broken': r['claim'],
             'old': r['old'], 'new': r['new'], 'theorems_failed': r['errs'], 'theorems_tightened': tightened.get(i, {}).get('tightened', [])}
        if r['ok']:
            o['outcome'] = 'survived'
        elif not r['errs']:
            o['outcome'] = 'edit rejected (did not build)'
        else:
            o['outcome'] = 'detected'
        if i in tightened and 'note' in tightened[i]:
            o['note'] = tightened[i]['note']
        out.write(json.dumps(o, ensure_ascii=False) + '\n')
print(len(seen))
