import re,glob,ast,os
cit={}
cur=None
for f in sorted(glob.glob('/verif/lean/Verif/Model/*.lean')):
    t=open(f).read()
    for m in re.finditer(r'/--(.*?)-/|/-!(.*?)-/',t,re.S):
        c=m.group(0)
        cur=None
        for tok in re.finditer(r'([a-z_]+\.py)|(\d{2,4})(?:-(\d{2,4}))?',c):
            if tok.group(1): cur=tok.group(1)
            elif cur:
                a=int(tok.group(2)); b=int(tok.group(3) or a)
                cit.setdefault(cur,set()).update(range(a,b+1))
for f in sorted(glob.glob('/repo/pyscqed/*.py')):
    n=os.path.basename(f)
    src=open(f).read()
    tree=ast.parse(src)
    out=[]
    def walk(node,pre=''):
        for ch in node.body:
            if isinstance(ch,ast.ClassDef): walk(ch,ch.name+'.')
            elif isinstance(ch,ast.FunctionDef):
                L=set(range(ch.lineno,ch.end_lineno+1))
                k=len(L&cit.get(n,set()))
                out.append((pre+ch.name,ch.lineno,ch.end_lineno,k))
    walk(tree)
    un=[o for o in out if o[3]==0]
    print(n,len(out),'functions; uncited:',len(un))
    for o in un: print('   ',o[0],o[1],o[2])
