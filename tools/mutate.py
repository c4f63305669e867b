#!/usr/bin/env python3
"""Run seeded bugs against the proofs.

usage: mutate.py MUTATIONS.jsonl DEPS.tsv LOG.jsonl

Each mutation is {"file", "def", "old", "new", "claim", "props"}: the text `old`, which must occur
exactly once in `file` (relative to lean/), is replaced by `new` in a scratch copy, which is built.
"more" is a list of further edits [file, old, new, number of occurrences] of the same bug.
A theorem counts as failed if Lean reports an error in it, or if it depends on a theorem with an
error.  To see past the first failing module, failing proofs are stubbed out in the scratch copy and
it is built again until it builds or
a theorem of each property named in `props` has failed.  DEPS.tsv lists the constants of the project and what they use.
"""
import json, os, re, subprocess, sys

SRC, DST = os.environ.get('SRC', '/verif/lean'), '/tmp/mut/'
muts = [json.loads(l) for l in open(sys.argv[1]) if l.strip()]
deps, users = {}, {}
for l in open(sys.argv[2]):
    n, m, u = l.rstrip('\n').split('\t')
    deps[n] = m
    for x in u.split():
        users.setdefault(x, set()).add(n)
bysuffix = {}
for n in deps:
    parts = n.split('.')
    for i in range(len(parts)):
        bysuffix.setdefault(('.'.join(parts[i:]), deps[n]), []).append(n)

def closure(names):
    seen, todo = set(), list(names)
    while todo:
        x = todo.pop()
        if x in seen: continue
        seen.add(x)
        todo += users.get(x, ())
    return seen

DECL = re.compile(r'^(?:@\[[^\]]*\]\s*)?(?:private |protected |noncomputable )*(theorem|def|example|instance|abbrev|structure|inductive)\b\s*(\S*)')
def stub(text):
    """The declaration with its proof replaced; None if the proof cannot be found."""
    depth = 0
    for i, c in enumerate(text):
        if depth == 0 and re.match(r'\swhere\s*\n', text[i:]):
            return text[:i] + ' := sor' 'ry'
        if c in '([{⟨': depth += 1
        elif c in ')]}⟩': depth -= 1
        elif depth == 0 and text.startswith(':=', i) and not re.search(r'\b(let|have) [^\n;]*$', text[:i]):
            return None if 'sor' 'ry' in text[i:] else text[:i] + ':= sor' 'ry'
    m = re.search(r'\n  \| ', text)
    return text[:m.start()] + ' := sor' 'ry' if m else None

log = open(sys.argv[3], 'a')
for k, m in enumerate(muts):
    subprocess.run('rm -rf /tmp/mut; cp -a %s /tmp/mut' % SRC, shell=True, check=True)
    p = DST + m['file']
    s = open(p).read()
    if s.count(m['old']) != m.get('count', 1):
        print(k, m['def'], 'BAD: occurs', s.count(m['old'])); continue
    open(p, 'w').write(s.replace(m['old'], m['new']))
    for f, old, new, n in m.get('more', []):
        s = open(DST + f).read()
        assert s.count(old) == n, (f, old, s.count(old))
        open(DST + f, 'w').write(s.replace(old, new))
    failed, examples = set(), 0
    model_broken, survived, incomplete = [], False, True
    for rnd in range(40):
        r = subprocess.run(['lake', 'build'], cwd=DST, capture_output=True, text=True)
        if r.returncode == 0:
            survived = rnd == 0
            incomplete = False
            break
        out = r.stdout + r.stderr
        stubs = {}
        for f, ln in set(re.findall(r'error: (Verif/\S+?\.lean):(\d+):\d+', out)):
            if '/Model/' in f: model_broken.append((f, int(ln)))
            lines = open(DST + f).read().split('\n')
            i = int(ln) - 1
            while i >= 0 and not DECL.match(lines[i]): i -= 1
            if i < 0: continue
            d = DECL.match(lines[i])
            stubs.setdefault(f, set()).add(i)
            if d.group(1) == 'example': continue
            mod = f[:-5].replace('/', '.')
            for n in bysuffix.get((d.group(2), mod), [d.group(2)]): failed.add(n)
        if model_broken or not stubs: break
        if m['props'] and all(any(x.split('.')[-1].startswith(q + '_') for x in closure(failed)) for q in m['props']): break
        progress = False
        for f, idx in stubs.items():
            lines = open(DST + f).read().split('\n')
            for i in sorted(idx, reverse=True):
                examples += DECL.match(lines[i]).group(1) == 'example'
                j = i + 1
                while j < len(lines) and (not lines[j] or lines[j][0] in ' \t)') : j += 1
                t = stub('\n'.join(lines[i:j]))
                if t is None: continue
                lines[i:j] = t.split('\n') + ['']
                progress = True
            open(DST + f, 'w').write('\n'.join(lines))
        if not progress: break
    allf = closure(failed)
    props = sorted(x.split('.')[-1] for x in allf if re.match(r'C\d\d+_', x.split('.')[-1]) and deps.get(x, '').startswith('Verif.Props') and '._' not in x and 'match_' not in x)
    props = [x for x in props if re.fullmatch(r'C\d\d+_\w+', x)]
    hit = [q for q in m['props'] if any(x.startswith(q + '_') for x in props)]
    miss = [q for q in m['props'] if q not in hit]
    status = 'OK' if hit and not miss else ('PART' if hit else 'MISSED')
    if survived: status = 'SURVIVED'
    if incomplete and miss: status += ' (rebuild incomplete)'
    if model_broken: status += ' MODEL-BROKEN %s' % model_broken
    print(k, m['def'], '|', m['old'].strip()[:60].replace('\n', '⏎'), '|', status, 'missed', miss, 'props', len(props), 'lemmas', len(failed), 'ex', examples, flush=True)
    rec = {"definition": m['def'], "file": m['file'], "edit": m['old'].strip() + "  ⇒  " + m['new'].strip() + ''.join("  and in %s: %s  ⇒  %s" % (f, o.strip(), n.strip()) for f, o, n, _ in m.get('more', [])), "claim": m['claim'],
           "properties": m['props'], "failed": [x for x in props if any(x.startswith(q + '_') for q in m['props'])],
           "failed_total": len(props), "failed_lemmas": sorted(x.replace('Revision.', '') for x in failed)[:12], "examples_failed": examples, "tightened": [], "status": status}
    log.write(json.dumps(rec, ensure_ascii=False) + '\n'); log.flush()
