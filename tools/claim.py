import json,sys
p='/verif/tools/claims.json'
d=json.load(open(p))
new=json.load(open(sys.argv[1]))
for k,v in new.items():
    if k=='C51+':
        for t in v:
            if t not in d['C51']['theorems']: d['C51']['theorems'].append(t)
    else: d[k]=v
json.dump(dict(sorted(d.items())),open(p,'w'),indent=1)
