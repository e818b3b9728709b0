import json,sys
p='/verif/tools/notes.json'
d=json.load(open(p)); d.update({k:({"note":v} if isinstance(v,str) else v) for k,v in json.load(open(sys.argv[1])).items()})
json.dump(d,open(p,'w'),indent=1)
