import sys,re
# usage: add.py module row row ...
mod=sys.argv[1]
p='/verif/lean/Verif.lean'
s=open(p).read()
if mod!='-' and f"import {mod}\n" not in s: open(p,'a').write(f"import {mod}\n")
p='/verif/tools/mk_manifest.py'
s=open(p).read()
for r in sys.argv[2:]:
    id,st,th,note=r.split('|')
    line=f' ("{id}","{st}",{["Verif.Props."+t for t in th.split(",")]!r},{note!r}),\n'
    s=re.sub(rf' \("{id}",.*\n','',s)
    s=s.replace("]\njson.dump",line+"]\njson.dump")
open(p,'w').write(s)
import subprocess
subprocess.run(['python3',p],check=True)
