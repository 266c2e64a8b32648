"""Random single-token mutants of the model. usage: automut.py <n> <seed> <out.jsonl>
Stops each build at the first errors outside Model."""
import json,subprocess,sys,re,os,shutil,random,glob,signal,time
n=int(sys.argv[1]); random.seed(int(sys.argv[2])); out=sys.argv[3]
src='/verif/lean'; dst='/tmp/amut/lean'
os.makedirs('/tmp/amut',exist_ok=True)
shutil.rmtree(dst,ignore_errors=True); shutil.copytree(src,dst,symlinks=True)
v=open(dst+'/Verif.lean').read(); v='\n'.join(l for l in v.split('\n') if '.Tests.' not in l); open(dst+'/Verif.lean','w').write(v)
R=[(r'\btrue\b','false'),(r'\bfalse\b','true'),(r' < ',' ≤ '),(r' ≤ ',' < '),(r' == ',' != '),(r' != ',' == '),(r' && ',' || '),(r' \|\| ',' && '),
 (r' \+ 1\b',''),(r' \+ ',' - '),(r' - ',' + '),(r' \* ',' + '),(r' / ',' * '),(r'\b0\b','1'),(r'\b1\b','0'),(r'\b2\b','3'),(r'\.add\b','.sub'),(r'\.sub\b','.add'),(r'\.mul\b','.add'),(r'\.div\b','.mul'),(r'\.neg\b','.abs'),
 (r'\.sin\b','.cos'),(r'\.cos\b','.sin'),(r'\.sinh\b','.cosh'),(r'\.cosh\b','.sinh'),(r'\.ln\b','.exp'),(r'\.exp\b','.ln'),(r'\.square\b','.double'),(r'\.oneSub\b','.addOne'),(r'\.addOne\b','.oneSub'),
 (r'\.panic\b','.err default'),(r'\bsome \(?\w+\)?','none'),(r'\.ok \w+','.panic'),(r'\bl r\b','r l'),(r'\ba b\b','b a'),(r'\bx y\b','y x'),(r'\bds es\b','es ds'),(r'\bl\b','r'),(r'\br\b','l'),(r'\bi\b','j'),(r'\bj\b','i'),(r' ++ ',None),
 (r'\.take\b','.drop'),(r'\.drop\b','.take'),(r'\.full\b','.ones'),(r'\.head\b','.getLast'),(r'\.any\b','.all'),(r'\.all\b','.any'),(r'\.map\b','.filterMap'),(r'\.reverse\b',''),(r'"([^"]{1,12})"','"?"'),(r'\.1\b','.2'),(r'\.2\b','.1'),(r'\.scalar\b','.vec'),(r'\.evaluate c\b','.evaluateSpec c'),(r'\bif ','if ¬ '),
]
C=[]
for f in sorted(glob.glob(dst+'/Verif/Model/*.lean')):
    txt=open(f).read()
    # strip comments but keep offsets
    t=re.sub(r'/-.*?-/',lambda m:re.sub(r'[^\n]',' ',m.group(0)),txt,flags=re.S)
    t=re.sub(r'--[^\n]*',lambda m:' '*len(m.group(0)),t)
    # only inside defs
    decl=None; pos=0
    for line in t.split('\n'):
        m=re.match(r'(?:@\[.*?\]\s*)?(?:private |protected |noncomputable )*(def|instance|theorem|lemma|inductive|structure|abbrev|example|namespace|open|variable|section|end|deriving|import|set_option|mutual|class)\b\s*([\w.«»\']*)',line)
        if m: decl=(m.group(1),m.group(2))
        if decl and decl[0] in('def','instance','abbrev') :
            for a,b in R:
                if b is None: continue
                for mm in re.finditer(a,line):
                    # skip signature part before := on first line
                    if m and ':=' in line and mm.start()<line.index(':='): continue
                    if m and ':=' not in line: continue
                    C.append((f,decl[1] or decl[0],pos+mm.start(),pos+mm.end(),b,line.strip()))
        pos+=len(line)+1
print(len(C),'candidates',flush=True)
random.shuffle(C)
# at most one per line first
seen=set(); D=[]
for c in C:
    k=(c[0],c[5])
    if k in seen: continue
    seen.add(k); D.append(c)
done=0
def decl_at(path,line):
    ls=open(path).read().split('\n')
    for i in range(min(line,len(ls))-1,-1,-1):
        m=re.match(r'(?:@\[.*?\]\s*)?(?:private |protected |noncomputable )*(theorem|lemma|def|abbrev|instance|example|inductive|structure)\s*([^\s:({\[]*)',ls[i])
        if m: return (m.group(2) or m.group(1)) if m.group(1)!='example' else 'example'
    return '?'
for (f,defn,a,b,new,line) in D:
    if done>=n: break
    orig=open(f).read()
    mutated=orig[:a]+new+orig[b:]
    ls=orig.rfind('\n',0,a)+1; le=mutated.find('\n',a)
    newline=mutated[ls:le].strip()
    open(f,'w').write(mutated)
    mod='Verif.Model.'+os.path.basename(f)[:-5]
    r=subprocess.run(['lake','build',mod],cwd=dst,capture_output=True,text=True)
    if r.returncode!=0:
        open(f,'w').write(orig); continue
    p=subprocess.Popen('lake build 2>&1',shell=True,cwd=dst,stdout=subprocess.PIPE,text=True,start_new_session=True)
    fails=[];modelerr=False;killed=False
    for l in p.stdout:
        m=re.match(r'error: (Verif/\S+?\.lean):(\d+):',l)
        if m:
            if m.group(1).startswith('Verif/Model'): modelerr=True
            nme=m.group(1)[6:-5].replace('/','.')+':'+decl_at(dst+'/'+m.group(1),int(m.group(2)))
            if nme not in fails: fails.append(nme)
        if any(not x.endswith(':example') for x in fails) and l.startswith('error: Lean exited'):
            killed=True; os.killpg(p.pid,signal.SIGKILL); break
    rc=p.wait()
    open(f,'w').write(orig)
    if modelerr: continue
    res='killed' if killed or any(not x.endswith(':example') for x in fails) else 'EXAMPLES' if fails else ('SURVIVED' if rc==0 else 'ERR')
    done+=1
    fn='lean/Verif/Model/'+os.path.basename(f)
    print(res,os.path.basename(f),defn,'|',line,'=>',newline,'|',fails,flush=True)
    with open(out,'a') as g:
        g.write(json.dumps({"definition":defn,"file":fn,"edit":line+'  =>  '+newline,"claim":"random mutant","result":res,"theorems_failed":fails,"theorems_tightened":[]},ensure_ascii=False)+'\n')
