import json,subprocess,sys,re,os,shutil
# usage: mut.py mutants.py   (mutants: list M of dict(file,defn,old,new,claim,props))
src='/verif/lean'; dst='/tmp/mut/lean'
os.makedirs('/tmp/mut',exist_ok=True)
subprocess.run(['rsync','-a','--delete',src+'/',dst+'/'],check=True) if shutil.which('rsync') else (shutil.rmtree(dst,ignore_errors=True), shutil.copytree(src,dst,symlinks=True))
exec(open(sys.argv[1]).read())
out=sys.argv[2]
def decl_at(path,line):
    ls=open(path).read().split('\n')
    for i in range(min(line,len(ls))-1,-1,-1):
        m=re.match(r'(?:@\[.*?\]\s*)?(?:private |protected |noncomputable )*(theorem|lemma|def|abbrev|instance|example|inductive|structure)\s*([^\s:({\[]*)',ls[i])
        if m: return (m.group(2) or m.group(1)) if m.group(1)!='example' else 'example'
    return '?'
for mu in M:
    p=dst+'/Verif/'+mu['file']; orig=open(p).read()
    assert orig.count(mu['old'])>=1,('not found',mu['defn'],mu['old'])
    assert orig.count(mu['old'])==1 or mu.get('nth') is not None,('ambiguous',mu['defn'],mu['old'],orig.count(mu['old']))
    if mu.get('nth') is not None:
        parts=orig.split(mu['old']); k=mu['nth']
        new=mu['old'].join(parts[:k+1])+mu['new']+mu['old'].join(parts[k+1:])
    else: new=orig.replace(mu['old'],mu['new'])
    open(p,'w').write(new)
    r=subprocess.run('lake build '+mu.get('targets','')+' 2>&1',shell=True,cwd=dst,capture_output=True,text=True)
    fails=[]; modelerr=False
    for m in re.finditer(r'^error: (Verif/\S+?\.lean):(\d+):',r.stdout,re.M):
        d=decl_at(dst+'/'+m.group(1),int(m.group(2)))
        n=m.group(1)[6:-5].replace('/','.')+':'+d
        if n not in fails: fails.append(n)
        if m.group(1).startswith('Verif/Model'): modelerr=True
    open(p,'w').write(orig)
    res='SURVIVED' if r.returncode==0 else ('MODELERR' if modelerr else 'killed')
    print(res,mu['defn'],'|',mu['new'][:60].replace('\n',' '),'|',fails,flush=True)
    if modelerr: print(r.stdout[-1500:])
    with open(out,'a') as f:
        f.write(json.dumps({"definition":mu['defn'],"file":"lean/Verif/"+mu['file'],"edit":mu.get('edit') or (mu['old']+'  =>  '+mu['new']),"claim":mu['claim'],"result":res,"theorems_failed":fails,"theorems_tightened":[]},ensure_ascii=False)+'\n')
