import json,re,glob
# status table: property -> (status, note)
exec(open('/tmp/gen/status.py').read())
ths={}
for f in sorted(glob.glob('/verif/lean/Verif/Props/*.lean')):
    ns=[]
    for line in open(f):
        m=re.match(r'namespace (\S+)',line)
        if m: ns.append(m.group(1))
        m=re.match(r'end (\S+)',line)
        if m and ns and ns[-1]==m.group(1): ns.pop()
        m=re.match(r'(?:private )?(?:theorem|lemma) (C\d\d_\S+)',line)
        if m: ths.setdefault(m.group(1)[:3],[]).append('.'.join(ns+[m.group(1)]))
claims=[]
for k in sorted(STATUS):
    st,note=STATUS[k]
    assert k in ths,(k)
    claims.append({"property":k,"status":st,"theorems":ths[k],"note":note})
for k in ths:
    if k not in STATUS: print("no status for",k)
json.dump({"claims":claims},open('/verif/MANIFEST.json','w'),indent=1,ensure_ascii=False)
print(len(claims),"claims",sum(len(c['theorems']) for c in claims),"theorems")
ax="import Verif\n/-! Axiom audit: every property theorem, with the axioms it depends on (build log). -/\n"
names=[t for k in sorted(ths) for t in ths[k]]
mods=sorted(f[len('/verif/lean/'):-5].replace('/','.') for f in glob.glob('/verif/lean/Verif/Props/*.lean'))
a="".join(f"import {m}\n" for m in mods)+"""import Lean.Elab.Command
import Lean.Util.CollectAxioms
/-!
# Axiom audit

Fails to build if a property theorem depends on an axiom other than `propext`, `Classical.choice`
and `Quot.sound`. Generated list: every theorem named in MANIFEST.json.
-/

open Lean Elab Command in
/-- `audit_axioms n₁ n₂ ..` checks the axioms of each constant. -/
elab "audit_axioms " ns:ident* : command => do
  for n in ns do
    let axs ← liftCoreM (collectAxioms n.getId)
    for a in axs do
      unless a ∈ [``propext, ``Classical.choice, ``Quot.sound] do
        throwError "{n.getId} depends on axiom {a}"

audit_axioms
"""+"\n".join("  "+n for n in names)+"\n"
open('/verif/lean/Verif/Audit.lean','w').write(a)
root="import Verif.Model.Scalar\n"+"".join(f"import {m}\n" for m in mods)+"import Verif.Tests.Repo\nimport Verif.Tests.Cases\nimport Verif.Audit\n"
open('/verif/lean/Verif.lean','w').write(root)
