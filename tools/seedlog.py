#!/usr/bin/env python3
"""Append the results of seed.py to /verif/seeded/LOG.jsonl. Usage: seedlog.py out.jsonl [notes.json]
notes.json maps "definition|edit" to {"tightened": [...], "note": "..."}."""
import json, sys
notes = json.load(open(sys.argv[2])) if len(sys.argv) > 2 else {}
with open('/verif/seeded/LOG.jsonl', 'a') as f:
    for l in open(sys.argv[1]):
        r = json.loads(l)
        n = notes.get(r['definition'] + '|' + r['edit'], {})
        o = {'definition': r['definition'], 'file': 'Verif/' + r['file'], 'edit': r['edit'],
             'claim': r['claim'], 'failed': r.get('failed', []), 'failed_modules': r.get('modules', []),
             'tightened': n.get('tightened', [])}
        if r.get('error'): o['error'] = r['error']
        if r.get('built'): o['survived'] = True
        if n.get('note'): o['note'] = n['note']
        f.write(json.dumps(o, ensure_ascii=False) + '\n')
