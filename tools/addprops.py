import json,sys
p='/verif/properties.jsonl'
ids=[json.loads(l)['id'] for l in open(p)]
new=json.load(open(sys.argv[1]))
with open(p,'a') as f:
    for d in new:
        if d['id'] not in ids: f.write(json.dumps(d)+"\n")
