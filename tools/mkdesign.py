"""Writes DESIGN.md: tools/design_head.md + one entry per property (run after mkprops.py and mkmanifest.py;
needs a finished `lake build` for #print axioms)."""
import json, re, subprocess, glob, os
R = '/verif'
props = [json.loads(l) for l in open(R + '/properties.jsonl')]
man = {c['property']: c for c in json.load(open(R + '/MANIFEST.json'))['claims']}
names = []
for c in man.values():
    for t in c['theorems']:
        if t not in names: names.append(t)
open('/tmp/ax.lean', 'w').write('import Verif\n' + '\n'.join('#print axioms ' + n for n in names) + '\n')
out = subprocess.run(['lake', 'env', 'lean', '/tmp/ax.lean'], cwd=R + '/lean', capture_output=True, text=True).stdout
ax = {}
for m in re.finditer(r"'([^']+)' (does not depend on any axioms|depends on axioms:\s*\[([^\]]*)\])", out):
    ax[m.group(1)] = m.group(3).replace('\n', ' ') if m.group(3) else ''
assert all(n in ax for n in names), [n for n in names if n not in ax]
where = {}
for f in glob.glob(R + '/lean/Verif/**/*.lean', recursive=True):
    for m in re.finditer(r'^\s*(?:@\[[^\]]*\]\s*)?(?:private |protected )?theorem (\S+)', open(f).read(), re.M):
        where.setdefault(m.group(1).split('.')[-1], []).append(os.path.relpath(f, R + '/lean/Verif')[:-5])
how = {}
exec(open(R + '/tools/how.py').read())
def short(a):
    s = {x.strip() for x in a.split(',') if x.strip()}
    return ''.join(k for k, n in (('p', 'propext'), ('c', 'Classical.choice'), ('q', 'Quot.sound')) if n in s) or '–'
txt = open(R + '/tools/design_head.md').read()
txt += '## 6. Properties, plan and theorems\n\n'
txt += ('`p`, `c`, `q` after a theorem are the axioms it rests on (`propext`, `Classical.choice`, `Quot.sound`); the module is in '
        '`lean/Verif/`. *How*: what is modelled and how it is proved.\n\n')
for p in props:
    c = man.get(p['id'])
    txt += f"### {p['id']} {p['title']} — {c['status'] if c else 'planned'}\n\n{p['statement']}\n\n"
    if p['id'] in how: txt += f"*How*: {how[p['id']]}\n\n"
    if c:
        for t in c['theorems']:
            w = where.get(t.split('.')[-1], ['?'])
            txt += f"* `{t}` ({'/'.join(w[:1])}; {short(ax[t])})\n"
        if c['note']: txt += f"\n*Note*: {c['note']}\n"
    txt += '\n'
open(R + '/DESIGN.md', 'w').write(txt)
print(len(names), 'theorems', {short(a): sum(1 for x in ax.values() if short(x) == short(a)) for a in ax.values()})
