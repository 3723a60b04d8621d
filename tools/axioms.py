#!/usr/bin/env python3
"""Prints the axioms of every theorem of MANIFEST.json into AXIOMS.md (runs Lean on a temporary file)."""
import json,os,re,subprocess,tempfile
root=os.path.join(os.path.dirname(os.path.abspath(__file__)),"..")
names=[]
for c in json.load(open(root+"/MANIFEST.json"))["claims"]:
    for t in c["theorems"]: names.append((c["property"],t))
src="import Verif\n"+"".join("#print axioms %s\n"%t for _,t in names)
with tempfile.NamedTemporaryFile("w",suffix=".lean",delete=False) as f: f.write(src)
out=subprocess.run(["lake","env","lean",f.name],cwd=root+"/lean",capture_output=True,text=True).stdout
os.unlink(f.name)
ax={}
out=re.sub(r"\n\s+"," ",out)
for l in out.split("\n"):
    m=re.match(r"'(.*?)' depends on axioms: \[(.*)\]",l)
    if m: ax[m.group(1)]=m.group(2)
    m=re.match(r"'(.*?)' does not depend on any axioms",l)
    if m: ax[m.group(1)]="none"
groups={}
for p,t in names: groups.setdefault(ax.get(t,"??"),[]).append((p,t))
with open(root+"/AXIOMS.md","w") as f:
    f.write("# Axioms of the theorems in MANIFEST.json\n\nGenerated by `tools/axioms.py` with `#print axioms`. No axiom of our own is declared anywhere.\n")
    for g in sorted(groups):
        f.write("\n## %s\n\n"%g)
        for p,t in groups[g]: f.write("* %s: `%s`\n"%(p,t))
print({g:len(v) for g,v in groups.items()})
