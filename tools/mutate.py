#!/usr/bin/env python3
"""Mutation tests: each mutant is (file, definition, old, new, claim, expected property ids).
Works in /tmp/scratch (a copy of /verif/lean), appends to /verif/seeded/LOG.jsonl."""
import subprocess, shutil, os, re, json, sys
SRC='/verif/lean'; DST='/tmp/scratch/lean'
def sync():
    subprocess.run(['rsync','-a','--delete',SRC+'/',DST+'/'],check=True) if shutil.which('rsync') else (shutil.rmtree(DST,ignore_errors=True), subprocess.run(['cp','-a',SRC,DST],check=True))
def decl_at(path,line):
    ls=open(path).read().split('\n')
    for i in range(min(line,len(ls))-1,-1,-1):
        m=re.match(r'\s*(?:@\[.*\]\s*)?(?:noncomputable\s+)?(theorem|def|example|instance|structure|inductive)\s*([A-Za-z_0-9.\']*)',ls[i])
        if m: return (m.group(2) or m.group(1))
    return '?'
def imports():
    g={}
    for root,_,fs in os.walk(DST+'/Verif'):
        for f in fs:
            if f.endswith('.lean'):
                p=os.path.join(root,f); mod='Verif.'+os.path.relpath(p,DST+'/Verif')[:-5].replace('/','.')
                g[mod]=[l.split()[1] for l in open(p) if l.startswith('import Verif')]
    return g
def closure(bad,mods,props):
    """Property theorems whose proofs (textually, transitively) use a declaration that failed."""
    blocks=[]
    for mod in mods:
        cur=None
        for l in open(DST+'/'+mod.replace('.','/')+'.lean'):
            m=re.match(r"(?:@\[.*\]\s*)?(?:private\s+|protected\s+)?(?:theorem|lemma|def|example|instance|structure|inductive)\s*([A-Za-z_0-9.']*)",l)
            if m: cur=[m.group(1) or 'example',set()]; blocks.append(cur)
            if cur: cur[1].update(re.findall(r"[A-Za-z_0-9']+(?:\.[A-Za-z_0-9']+)*",l))
    bad=set(x for x in bad if x not in('example','?')); bad|=set(x.split('.')[-1] for x in bad); ch=True
    while ch:
        ch=False
        for n,toks in blocks:
            if n!='example' and n not in bad and any(t in bad or any(c in bad for c in t.split('.')) for t in toks): bad.add(n); ch=True
    return sorted(x for x in bad if re.match(r'C\d\d+_',x) and (not props or any(x.startswith(q+'_') for q in props)))
HOLE='so'+'rry'   # scratch copy only
def patch(path,name,line):
    """In the scratch copy, stub the proof of the failed declaration so that later modules are checked too."""
    ls=open(path).read().split('\n')
    pat=r"(?:@\[.*\]\s*)?(?:private\s+|protected\s+)?(theorem|lemma|def|example|instance|structure|inductive|mutual|end|namespace|/--|/-!|open|abbrev)"
    i=min(line,len(ls))-1
    while i>=0 and not re.match(r"(?:@\[.*\]\s*)?(theorem|lemma|example|def|instance|structure|inductive|abbrev)\b",ls[i]): i-=1
    j=i+1
    while j<len(ls) and not re.match(pat,ls[j]): j+=1
    blk='\n'.join(ls[i:j])
    if re.match(r"example",blk): new=''
    else:
        d=0; k=None; n=0
        while n<len(blk):
            c=blk[n]
            if c in '([{⟨': d+=1
            elif c in ')]}⟩': d-=1
            elif d==0 and blk.startswith(':=',n): k=n; break
            elif d==0 and re.match(r"\n  \| ",blk[n:]): k=n; break
            n+=1
        if k is None or not re.match(r"(?:@\[.*\]\s*)?(theorem|lemma)",blk): return False
        new=blk[:k].rstrip()+' := by '+HOLE+'\n'
    if new==blk: return False
    ls[i:j]=new.split('\n'); open(path,'w').write('\n'.join(ls)); return True
def exact_blocked(props):
    """The stubbed scratch copy builds: the kernel's axiom lists say which property theorems rest on a stub."""
    names=[]; mods=[]
    for f in sorted(os.listdir(DST+'/Verif/Props')):
        if not f.endswith('.lean'): continue
        ns=[]
        for l in open(DST+'/Verif/Props/'+f):
            m=re.match(r'namespace (\S+)',l)
            if m: ns.append(m.group(1))
            m=re.match(r'end (\S+)',l)
            if m and ns and ns[-1]==m.group(1): ns.pop()
            m=re.match(r"(?:theorem|lemma) (C\d\d+_[A-Za-z_0-9']*)",l)
            if m and (not props or any(m.group(1).startswith(q+'_') for q in props)):
                names.append('.'.join(ns+[m.group(1)])); mods.append('Verif.Props.'+f[:-5])
    t=DST+'/Axioms.lean'
    open(t,'w').write('\n'.join('import '+m for m in dict.fromkeys(mods))+'\n'+'\n'.join('#print axioms '+n for n in names)+'\n')
    r=subprocess.run(['lake','env','lean',t],cwd=DST,capture_output=True,text=True); os.remove(t)
    out=re.sub(r'\n\s+',' ',r.stdout)
    return sorted(m.group(1).split('.')[-1] for m in re.finditer(r"'([^']+(?:'[^' ]*)*)' depends on axioms: \[([^\]]*)\]",out) if HOLE+'Ax' in m.group(2))
def run(mut):
    f,defn,old,new,claim,props=mut
    p=os.path.join(DST,f); s=open(p).read()
    assert s.count(old)==1,(defn,s.count(old))
    open(p,'w').write(s.replace(old,new))
    failed=[]; mods=set(); saved={}; rc=0
    for rnd in range(40):
        r=subprocess.run(['lake','build'],cwd=DST,capture_output=True,text=True,timeout=1500)
        out=r.stdout+r.stderr; rc=rc or r.returncode
        if r.returncode==0: break
        todo={}
        for m in re.finditer(r'error: (Verif/[\w/]+\.lean):(\d+):\d+',out):
            q=os.path.join(DST,m.group(1))
            d=decl_at(q,int(m.group(2)))
            mod=m.group(1)[:-5].replace('/','.'); mods.add(mod)
            if (mod,d) not in failed: failed.append((mod,d))
            todo.setdefault(q,set()).add(int(m.group(2)))
        ok=bool(todo)
        for q,lines in todo.items():
            saved.setdefault(q,open(q).read() if q!=p else s)
            done=set()
            txt=open(q).read().split('\n')
            def start(ln):
                i=min(ln,len(txt))-1
                while i>=0 and not re.match(r"(?:@\[.*\]\s*)?(theorem|lemma|example|def|instance|structure|inductive|abbrev)\b",txt[i]): i-=1
                return i
            for ln in sorted(lines,reverse=True):
                d=decl_at(q,ln)
                if start(ln) in done: continue
                done.add(start(ln))
                if not patch(q,d,ln): ok=False
        if not ok: break
    g=imports(); dep=set(mods); ch=True
    while ch:
        ch=False
        for k,v in g.items():
            if k not in dep and any(x in dep for x in v): dep.add(k); ch=True
    exact=exact_blocked(props) if rc!=0 and r.returncode==0 else None
    for q,t in saved.items(): open(q,'w').write(t)
    blocked=exact if exact is not None else closure([d for _,d in failed],dep,props)
    open(p,'w').write(s)
    names=[d for _,d in failed]
    direct=[d for d in names if re.match(r'C\d\d+_',d)]
    # a blocked theorem counts when the failed helper is in a module it imports
    killed=rc!=0 and (bool(direct) or bool(blocked))
    rec={"definition":defn,"file":f,"edit":f"{old.strip()}  ->  {new.strip()}","claim_broken":claim,"theorems_failed":names,"property_theorems_no_longer_built":sorted(blocked),"caught":killed,"theorems_tightened":[]}
    return rec,out
if __name__=='__main__':
    sync()
    subprocess.run(['lake','build'],cwd=DST,capture_output=True)
    ns={}; exec(open(sys.argv[1]).read(),ns)
    for mut in ns['MUTS']:
        rec,out=run(mut)
        print(('CAUGHT ' if rec['caught'] else 'SURVIVED '),rec['definition'],'|',rec['edit'].replace('\n',' ')[:90],'|',rec['theorems_failed'][:6],'|',rec['property_theorems_no_longer_built'][:6],flush=True)
        if '-n' not in sys.argv:
            open('/verif/seeded/LOG.jsonl','a').write(json.dumps(rec)+'\n')
