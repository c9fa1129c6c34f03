"""Writes the section 'Where the theorems are' of DESIGN.md: the modules that hold the theorems of each
property, and the specification modules whose definitions occur in the statements."""
import json, re, os
D = 'lean/Verif'
src = {f[:-5]: open(f'{D}/{f}').read() for f in os.listdir(D) if f.endswith('.lean')}
where = {}
for m, t in src.items():
    for x in re.findall(r'^theorem\s+(\S+)', t, re.M):
        where.setdefault(x.split('.')[-1], []).append(m)
stmt = {}
for m, t in src.items():
    for k in re.finditer(r'^theorem\s+(\S+)(.*?)(?::=|^\s*\|)', t, re.M | re.S):
        stmt[k.group(1).split('.')[-1]] = k.group(2)
names = {}
for m, t in src.items():
    if m.endswith('Spec'):
        for x in re.findall(r'^(?:def|structure|inductive|abbrev)\s+(\S+)', t, re.M):
            names.setdefault(x.split('.')[-1], []).append(m)
def closure(m, seen):
    for x in re.findall(r'^import Verif\.(\S+)', src[m], re.M):
        if x not in seen:
            seen.add(x); closure(x, seen)
    return seen
rows = []
for c in json.load(open('MANIFEST.json'))['claims']:
    mods, miss = [], []
    for t in c['theorems']:
        w = where.get(t.split('.')[-1])
        if not w: miss.append(t)
        else: mods += [x for x in w if x not in mods]
    if miss: print('not found', c['property'], miss)
    spec = []
    near = set().union(*[closure(m, set()) for m in mods])
    for t in c['theorems']:
        for x in sorted(set(re.findall(r'[A-Za-z_][A-Za-z_0-9\']*', stmt.get(t.split('.')[-1], '')))):
            if len(x) > 1:
                spec += [y for y in names.get(x, []) if y not in spec and y in near
                         and (y != 'CliSpec' or any(m[5:8] in ('Cli', 'Too') for m in mods))]
    rows.append(f"| {c['property']} | {', '.join(f'`{m}`' for m in sorted(mods))} | {', '.join(f'`{m}`' for m in sorted(set(spec))) or '—'} |")
text = ('## Where the theorems are\n\nModules under `lean/Verif`; the third column has the specification modules the '
        'statements use besides\ndefinitions given at the head of the module itself. Written by `tools/where.py`.\n\n'
        '| property | theorems | specification |\n|---|---|---|\n' + '\n'.join(rows) + '\n\n')
d = open('DESIGN.md').read()
d = re.sub(r'## Where the theorems are\n.*?(?=## Defects)', '', d, flags=re.S)
d = d.replace('## Defects', text + '## Defects', 1)
open('DESIGN.md', 'w').write(d)
