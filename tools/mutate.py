"""Seeded-bug runs: apply one edit at a time to a scratch copy of the Lean project, rebuild, log what fails.

usage: mutate.py [--fast] MUTATIONS.json   (list of {"file","definition","old","new","edit","claim","tightened"?})
With --fast a build is stopped at the first module that fails, and only its declarations are logged.
The scratch copy lives in /tmp/mut; /verif/lean is not touched. One line per run is appended to seeded/LOG.jsonl.
"""
import json, os, pathlib, re, signal, subprocess, sys

fast = "--fast" in sys.argv

root = pathlib.Path(__file__).resolve().parent.parent
scratch = pathlib.Path("/tmp/mut")
subprocess.run(f"rm -rf {scratch}; rm -rf {scratch}; cp -a {root}/lean {scratch}", shell=True)


def owner(path, line):
    """Name of the declaration containing the given line."""
    text = path.read_text().splitlines()
    for i in range(line - 1, -1, -1):
        m = re.match(r"^(?:@\[[^\]]*\] )?(?:private |noncomputable |protected )*(theorem|def|instance|lemma|example|structure|inductive|abbrev)\b\s*([\w'.]*)", text[i])
        if m:
            return m.group(2) or f"{m.group(1)} at {path.name}:{i+1}"
    return f"{path.name}:{line}"


def run():
    if not fast:
        p = subprocess.run(["lake", "build"], cwd=scratch, capture_output=True, text=True)
        return p.returncode, p.stdout + p.stderr
    p = subprocess.Popen(["lake", "build"], cwd=scratch, stdout=subprocess.PIPE, stderr=subprocess.STDOUT, text=True,
                         start_new_session=True)
    out = ""
    for line in p.stdout:
        out += line
        if line.startswith("error: Lean exited"):
            os.killpg(p.pid, signal.SIGKILL)
            p.wait()
            return 1, out
    return p.wait(), out


def build():
    code, out = run()
    names = []
    for f, l in re.findall(r"error: (Verif/[\w/]+\.lean):(\d+):\d+", out):
        n = owner(scratch / f, int(l))
        if n not in names:
            names.append(n)
    failed_mods = re.findall(r"^- (Verif[\w.]*)", out, re.M) or sorted(
        {f[:-5].replace("/", ".") for f, _ in re.findall(r"error: (Verif/[\w/]+\.lean):(\d+):\d+", out)})
    return code, names, failed_mods, out


for mut in json.load(open(sys.argv[-1])):
    path = scratch / mut["file"]
    orig = path.read_text()
    if orig.count(mut["old"]) != 1:
        print("SKIP (old text occurs", orig.count(mut["old"]), "times):", mut["edit"]); continue
    path.write_text(orig.replace(mut["old"], mut["new"]))
    rc, names, mods, out = build()
    path.write_text(orig)
    rec = {"definition": mut["definition"], "file": mut["file"], "edit": mut["edit"], "claim": mut["claim"],
           "build_failed": rc != 0, "failed": names, "failed_modules": mods, "tightened": mut.get("tightened", [])}
    print(json.dumps(rec, ensure_ascii=False))
    if rc == 0 or not names:
        print("   !!! SURVIVED or unparsed:", out[-1500:] if rc else "")
    with open(root / "seeded" / "LOG.jsonl", "a") as fh:
        fh.write(json.dumps(rec, ensure_ascii=False) + "\n")
