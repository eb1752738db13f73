"""Which functions of /repo/fruits are cited by a definition of the model?"""
import ast, glob, os, re, sys
ROOT = os.path.dirname(os.path.dirname(os.path.abspath(__file__)))
files = sorted(glob.glob('/repo/fruits/**/*.py', recursive=True))
cites = {}
alias = {}
for lf in sorted(glob.glob(ROOT + '/lean/Verif/*.lean')):
    txt = open(lf).read()
    for blk in re.finditer(r'/--.*?-/|/-!.*?-/', txt, re.S):
        b = blk.group(0)
        cur = None
        for m in re.finditer(r'([A-Za-z_/]+\.py)|(?<![\w.])(\d+)(?:\s*[-–]\s*(\d+))?(?![\w.]\d)', b):
            if m.group(1): cur = m.group(1)
            elif cur:
                a = int(m.group(2)); z = int(m.group(3) or a)
                if a >= 5: cites.setdefault(cur, []).append((a, z, os.path.basename(lf)))
def match(path, fn):
    return path.endswith('/' + fn) or os.path.basename(path) == fn
tot = cov = 0
for p in files:
    src = open(p).read()
    tree = ast.parse(src)
    rel = p[len('/repo/'):]
    cs = [c for fn, l in cites.items() if match(p, fn) for c in l]
    # ambiguous basenames: cache.py, wrapper.py, abstract.py, transform.py
    def walk(node, pre):
        global tot, cov
        for ch in ast.iter_child_nodes(node):
            if isinstance(ch, (ast.FunctionDef, ast.AsyncFunctionDef)):
                tot += 1
                hit = sorted({f for a, z, f in cs if a <= ch.end_lineno and z >= ch.lineno})
                cov += bool(hit)
                print(f"{rel}:{ch.lineno}-{ch.end_lineno} {pre}{ch.name} -> {', '.join(hit) if hit else '---'}")
                walk(ch, pre + ch.name + '.')
            elif isinstance(ch, ast.ClassDef):
                walk(ch, pre + ch.name + '.')
    walk(tree, '')
print(cov, 'of', tot)
