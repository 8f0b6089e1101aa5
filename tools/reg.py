# usage: reg.py FILE.json ; entries: {id,title,statement,quantifier,why,anchors,model,how,note,status?}
import json,sys,re
es=json.load(open(sys.argv[1]))
have={json.loads(l)['id'] for l in open('/verif/properties.jsonl') if l.strip()}
with open('/verif/properties.jsonl','a') as f:
    for e in es:
        if e['id'] in have: continue
        f.write(json.dumps({"id":e['id'],"title":e['title'],"statement":e['statement'],"quantifier":e['quantifier'],"why_tests_cant":e['why'],"anchors":e['anchors']},ensure_ascii=False)+"\n")
d=open('/verif/DESIGN.md').read()
rows=''.join(f"| {e['id']} | {e['model']} | {e['how']} |\n" for e in es if f"\n| {e['id']} |" not in d)
i=d.index("\n| C69 |"); j=d.index("\n",i+1)+1
# append after last table row contiguous
k=j
while d[k:k+2]=="| ": k=d.index("\n",k)+1
d=d[:k]+rows+d[k:]
open('/verif/DESIGN.md','w').write(d)
n=json.load(open('/verif/tools/notes.json'))
for e in es:
    n[e['id']]={"note":e['note']}
    if 'status' in e: n[e['id']]['status']=e['status']
open('/verif/tools/notes.json','w').write("{\n"+",\n".join(json.dumps(k)+": "+json.dumps(v,ensure_ascii=False) for k,v in n.items())+"\n}\n")
