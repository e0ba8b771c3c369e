# Prints the axioms of every theorem in MANIFEST.json (run after `lake build`).
import json, os, subprocess, tempfile
root = os.path.join(os.path.dirname(os.path.abspath(__file__)), "..")
m = json.load(open(os.path.join(root, "MANIFEST.json")))
src = "import Verif\n" + "".join("#print axioms %s\n" % t for c in m["claims"] for t in c["theorems"])
with tempfile.NamedTemporaryFile("w", suffix=".lean", delete=False) as f:
    f.write(src)
subprocess.run(["lake", "env", "lean", f.name], cwd=os.path.join(root, "lean"))
