import json
P="QDD.Props."
C={}
def c(pid,status,ths,note=""): C[pid]={"property":pid,"status":status,"theorems":[t if t.startswith('QDD.') else P+t for t in ths],"note":note}
exec(open('/verif/tools/manifest_data.py').read())
ids=[json.loads(l)['id'] for l in open('/verif/properties.jsonl')]
json.dump({"claims":[C[i] for i in ids if i in C]},open('/verif/MANIFEST.json','w'),indent=1)
print([i for i in ids if i not in C])
