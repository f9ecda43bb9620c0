#!/usr/bin/env python3
"""Seeded-bug test. usage: mutate.py edits.json
Each edit: {"file","old","new","definition","edit","claim"} and optionally "targets" (modules to build).  In a scratch copy of lean/ (/tmp/mut/lean) apply the edit, rebuild,
replace the proof of every failing declaration by a placeholder so that later modules are checked too, and list all
failing declarations.  One JSON line per edit is printed, for seeded/LOG.jsonl."""
import json, re, subprocess, shutil, sys, os
SRC=os.environ.get('SRC','/verif/lean'); DST=os.environ.get('DST','/tmp/mut/lean')
HOLE='so'+'rry'
def sync():
    os.makedirs(DST, exist_ok=True)
    subprocess.run(['rsync','-a','--delete','--exclude','.lake',SRC+'/',DST+'/'],check=True) if shutil.which('rsync') else sync2()
def sync2():
    for root,ds,fs in os.walk(SRC):
        if '.lake' in root: continue
        ds[:]=[d for d in ds if d!='.lake']
        for f in fs:
            s=os.path.join(root,f); d=DST+s[len(SRC):]
            os.makedirs(os.path.dirname(d),exist_ok=True)
            if not os.path.exists(d) or open(s,'rb').read()!=open(d,'rb').read(): shutil.copy(s,d)
DECL=re.compile(r'^(?:@\[[^\]]*\] *)?(?:private |noncomputable |protected )?(theorem|lemma|def|example|instance|abbrev|structure|inductive)\b *([^\s:({\[]*)')
TOP=re.compile(r'^(?:@\[|/--|theorem|lemma|def|example|instance|abbrev|structure|inductive|private|noncomputable|protected|end |namespace|section|open |variable|mutual|omit|macro|set_option|/-!|termination_by|decreasing_by)')
def find(lines, ln):
    k=ln-1
    while k>=0 and not DECL.match(lines[k]): k-=1
    if k<0: return None
    e=k+1
    while e<len(lines) and not TOP.match(lines[e]): e+=1
    m=DECL.match(lines[k])
    return k,e,m.group(1),m.group(2)
def hole(lines,k,e):
    txt='\n'.join(lines[k:e]); depth=0; i=0
    while i<len(txt):
        c=txt[i]
        if c in '([{⟨': depth+=1
        elif c in ')]}⟩': depth-=1
        elif depth==0 and txt.startswith(':=',i):
            return lines[:k]+(txt[:i]+':= by '+HOLE).split('\n')+['']*0+lines[e:]
        i+=1
    # pattern-matching theorem
    m=re.search(r'\n  \| ',txt)
    if m: return lines[:k]+(txt[:m.start()]+' := by '+HOLE).split('\n')+lines[e:]
    return None
def build(targets=()):
    p=subprocess.run(['lake','build',*targets],cwd=DST,capture_output=True,text=True)
    return p.stdout+p.stderr, p.returncode
def run(ed):
    sync2()
    f=DST+'/Verif/'+ed['file']; s=open(f).read()
    if s.count(ed['old'])!=1: return None,'old occurs %d times'%s.count(ed['old'])
    open(f,'w').write(s.replace(ed['old'],ed['new']))
    failed=[]; killed=0
    for rnd in range(int(os.environ.get("ROUNDS","60"))):
        out,rc=build(ed.get('targets',()))
        errs={}
        for m in re.finditer(r'^error: (Verif[^:]*\.lean):(\d+):',out,re.M): errs.setdefault(m.group(1),set()).add(int(m.group(2)))
        if not errs and rc!=0 and killed<5: killed+=1; continue  # a prover ran out of memory: build again
        if not errs: break
        prog=False
        for fn,lns in errs.items():
            path=DST+'/'+fn; lines=open(path).read().split('\n')
            spans={}
            for ln in lns:
                r=find(lines,ln)
                if r: spans[r[0]]=r
            for k in sorted(spans,reverse=True):
                _,e,kind,name=spans[k]
                nm=(name or 'example')+('' if name else '@'+fn.split('/')[-1]+':'+str(k+1))
                if kind in('def','abbrev','structure','inductive','instance'): return failed,'definition %s no longer compiles'%nm
                if nm in failed: continue
                failed.append(nm); prog=True
                if kind=='example': del lines[k:e]
                else:
                    nl=hole(lines,k,e)
                    if nl is None: return failed,'cannot hole '+nm
                    lines=nl
            open(path,'w').write('\n'.join(lines))
        if not prog: return failed,'stuck'
    return failed,None
if __name__=='__main__':
    eds=json.load(open(sys.argv[1]))
    for ed in eds:
        failed,msg=run(ed)
        props=[x for x in (failed or []) if re.match(r'C\d\d',x)]
        rec={'definition':ed['definition'],'edit':ed['edit'],'claim':ed['claim'],'failed':failed,'property_theorems_failed':props,'tightened':ed.get('tightened',[])}
        if msg: rec['note']=msg
        print(json.dumps(rec),flush=True)
        with open('/tmp/mut/out.jsonl','a') as o: o.write(json.dumps(rec)+'\n')
