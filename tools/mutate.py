#!/usr/bin/env python3
"""Apply wrong edits to a scratch copy of the model and report which theorems fail.

usage: mutate.py muts.json out.jsonl [scratch [base]]
`base` is a built copy of /verif/lean (default: /verif/lean itself); the scratch copy is renewed for each edit.
muts.json: list of {file, def, old, new, claim, breaks}; `file` is relative to lean/Verif.
"""
import json, re, sys, subprocess, pathlib, shutil
root = pathlib.Path(__file__).resolve().parent.parent
muts = json.load(open(sys.argv[1]))
out = open(sys.argv[2], "a")
scratch = pathlib.Path(sys.argv[3] if len(sys.argv) > 3 else "/tmp/mut/lean")
base = pathlib.Path(sys.argv[4]) if len(sys.argv) > 4 else root / "lean"
def fresh():
    scratch.mkdir(parents=True, exist_ok=True)
    subprocess.run(["rsync", "-a", "--delete", f"{base}/", f"{scratch}/"], check=True) if shutil.which("rsync") \
        else subprocess.run(f"rm -rf {scratch} && cp -a {base} {scratch}", shell=True, check=True)
for m in muts:
    fresh()
    f = scratch / "Verif" / m["file"]
    s = f.read_text()
    n = s.count(m["old"])
    if n != 1:
        print("SKIP", m["def"], "occurrences", n, flush=True); continue
    f.write_text(s.replace(m["old"], m["new"]))
    r = subprocess.run(["lake", "build"], cwd=scratch, capture_output=True, text=True, timeout=3000)
    txt = r.stdout + r.stderr
    failed = []
    for e in re.finditer(r"^error: (Verif/\S+\.lean):(\d+):", txt, re.M):
        lines = (scratch / e.group(1)).read_text().splitlines()
        name = None
        for i in range(int(e.group(2)) - 1, -1, -1):
            k = re.match(r"(?:private |protected |omit .* in )?(theorem|def|example|instance|structure)\b ?(\S*)", lines[i])
            if k:
                name = f"{e.group(1)[6:-5].replace('/', '.')}:{k.group(2) if k.group(1) != 'example' else 'example'}"; break
        if name and name not in failed: failed.append(name)
    bad = set(re.findall(r"^✖ \[\d+/\d+\] Building (\S+)", txt, re.M))
    built = set(re.findall(r"^[✔⚠ℹ] \[\d+/\d+\] (?:Built|Replayed|Building) (\S+)", txt, re.M))
    mods = ["Verif." + str(p.relative_to(scratch / "Verif"))[:-5].replace("/", ".") for p in (scratch / "Verif").rglob("*.lean")]
    imports = {}
    for p in (scratch / "Verif").rglob("*.lean"):
        k = "Verif." + str(p.relative_to(scratch / "Verif"))[:-5].replace("/", ".")
        imports[k] = re.findall(r"^import (Verif\S+)", p.read_text(), re.M)
    def dep(k, seen=None):
        if k in bad: return True
        return any(dep(i) for i in imports.get(k, []))
    blocked = sorted(k for k in mods if ".Props." in k and k not in bad and dep(k))
    rec = {"definition": m["def"], "edit": f'{m["file"]}: `{m["old"].strip()}` -> `{m["new"].strip()}`',
           "claim_broken": m["breaks"], "claim": m["claim"], "build": "ok" if r.returncode == 0 else "failed",
           "theorems_failed": failed, "property_modules_blocked": [b.split(".")[-1] for b in blocked], "theorems_tightened": []}
    out.write(json.dumps(rec) + "\n"); out.flush()
    print(m["breaks"], m["def"], rec["build"], failed[:4], len(blocked), flush=True)
    f.write_text(s)
