import json
d=json.load(open('/tmp/mut/m17.json'))
nth=json.loads(open('/tmp/mut/nth.json').read())
for r in d:
    if r['id'] in nth: r['count'],r['nth']=nth[r['id']]
json.dump(d,open('/tmp/mut/m17.json','w'),indent=1)
