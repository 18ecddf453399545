#!/usr/bin/env python3
"""Which functions of /repo/neocore are cited by which model definition. Prints a table; 'NOT CITED' rows come last."""
import ast, glob, os, re
R = '/repo'
L = os.path.join(os.path.dirname(__file__), '../lean/Verif')
cites = []   # (file, lo, hi, lean module, definition)
for f in sorted(glob.glob(L + '/Model/*.lean') + glob.glob(L + '/Py/*.lean')):
    src = open(f).read()
    for m in re.finditer(r'/--(.*?)-/\s*(?:@\[[^\]]*\]\s*)*(?:private |noncomputable )*(?:def|structure|inductive|abbrev|instance)\s+(\S+)', src, re.S):
        # ranges after a file name belong to that file until the next file name
        for c in re.finditer(r'(neocore/[\w/]+\.py):(.*?)(?=neocore/[\w/]+\.py:|$)', m.group(1), re.S):
            for r in re.finditer(r'(?<![\w.^-])(\d+)(?:-(\d+))?(?![\w.^*])', c.group(2)):
                lo, hi = int(r.group(1)), int(r.group(2) or r.group(1))
                if r.group(2) is None and not re.match(r'\d+\b', c.group(2)[:r.end()]): continue
                cites.append((c.group(1), lo, hi, os.path.basename(f)[:-5], m.group(2)))
rows, missing = [], []
for f in sorted(glob.glob(R + '/neocore/**/*.py', recursive=True)):
    rel = os.path.relpath(f, R)
    def walk(n, pre):
        for c in ast.iter_child_nodes(n):
            if isinstance(c, ast.ClassDef): walk(c, pre + c.name + '.')
            elif isinstance(c, ast.FunctionDef):
                hit = sorted({f'{m}.{d}' for (g, lo, hi, m, d) in cites if g == rel and lo <= c.end_lineno and hi >= c.lineno})
                (rows if hit else missing).append((rel, f'{c.lineno}-{c.end_lineno}', pre + c.name, hit))
                walk(c, pre + c.name + '.')
    walk(ast.parse(open(f).read()), '')
for r in rows: print(*r[:3], ', '.join(r[3]), sep=' | ')
for r in missing: print(*r[:3], 'NOT CITED', sep=' | ')
