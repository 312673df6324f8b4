import json,sys
p='/verif/tools/status.json'
d=json.load(open(p))
for line in sys.stdin:
    line=line.strip()
    if not line: continue
    k,s,n=line.split('|',2)
    d[k]=[s,n]
json.dump(d,open(p,'w'),indent=0,ensure_ascii=False)
