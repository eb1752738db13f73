"""Seeded-bug runner.  usage: mutate.py FILE.json
FILE.json: list of {definition, file, old, new, claim, expect:[theorem names], tightened?:[...]}.
Each edit is applied to a scratch copy (/tmp/mut) of lean/, rebuilt, and the failing theorems are recorded in seeded/LOG.jsonl."""
import json, sys, subprocess, re, os, shutil
SRC = os.environ.get('MUT_SRC', '/verif/lean'); DST = '/tmp/mut/lean'
def sync():
    os.makedirs(DST, exist_ok=True)
    subprocess.run(['rsync', '-a', '--delete', '--exclude', '.lake', SRC + '/', DST + '/'], check=True) if shutil.which('rsync') else copy()
def copy():
    for root, ds, fs in os.walk(SRC):
        if '.lake' in root: continue
        ds[:] = [d for d in ds if d != '.lake']
        rel = os.path.relpath(root, SRC)
        os.makedirs(os.path.join(DST, rel), exist_ok=True)
        for f in fs:
            a, b = os.path.join(root, f), os.path.join(DST, rel, f)
            if not os.path.exists(b) or open(a, 'rb').read() != open(b, 'rb').read():
                shutil.copy2(a, b)
def enclosing(path, line):
    ls = open(path).read().split('\n')
    for i in range(min(line, len(ls)) - 1, -1, -1):
        mm = re.match(r'\s*(?:@\[[^\]]*\]\s*)?(?:private |noncomputable |protected )*(theorem|lemma|example|def|instance|abbrev|structure|inductive)\b\s*([^\s:({\[]*)', ls[i])
        if mm: return (mm.group(2) or mm.group(1))
    return '?'
def build():
    p = subprocess.run(['lake', 'build'], cwd=DST, capture_output=True, text=True)
    out = p.stdout + p.stderr
    bad = []
    for mm in re.finditer(r'^error: (Verif/[^:]+):(\d+):\d+', out, re.M):
        n = os.path.basename(mm.group(1))[:-5] + ':' + enclosing(os.path.join(DST, mm.group(1)), int(mm.group(2)))
        if n not in bad: bad.append(n)
    failed = re.findall(r'^- (Verif\S*)', out, re.M)
    return p.returncode, bad, failed
if __name__ == '__main__':
    muts = json.load(open(sys.argv[1]))
    if not os.path.exists(DST + '/.lake'):
        sync(); shutil.copytree(SRC + '/.lake', DST + '/.lake', symlinks=True)
    for mu in muts:
        sync()
        f = DST + '/Verif/' + mu['file']
        s = open(f).read()
        if s.count(mu['old']) != 1:
            print('SKIP', mu['definition'], s.count(mu['old'])); continue
        open(f, 'w').write(s.replace(mu['old'], mu['new']))
        rc, bad, failed = build()
        surv = rc == 0
        rec = dict(definition=mu['definition'], edit=f"{mu['old'].strip()}  ==>  {mu['new'].strip()}", claim=mu['claim'],
                   failed=bad, failed_modules=failed, survived=surv, tightened=mu.get('tightened', []))
        if mu.get('note'): rec['note'] = mu['note']
        if not surv or mu.get('log_survivor'):
            open('/verif/seeded/LOG.jsonl', 'a').write(json.dumps(rec, ensure_ascii=False) + '\n')
        print('SURVIVED' if surv else 'killed', mu['definition'], mu['claim'], bad[:8], flush=True)
        open(f, 'w').write(s)
