import json,sys
def add(recs):
    p='/verif/properties.jsonl'
    have={json.loads(l)['id'] for l in open(p) if l.strip()}
    with open(p,'a') as f:
        for r in recs:
            if r['id'] in have: print('dup',r['id']); continue
            f.write(json.dumps(r,ensure_ascii=False)+'\n')
