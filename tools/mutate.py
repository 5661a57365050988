#!/usr/bin/env python3
"""Mutation test of the theorems, in a scratch copy outside /verif.

For each mutant (a textual edit of a definition of the model) the scratch copy of the project is rebuilt. Every
declaration whose proof fails gets an unproved placeholder, and the build is repeated until it succeeds; then the axioms
of every property theorem are listed. A property theorem that depends on the placeholder has FAILED for the mutant, the
others still prove. usage: mutate.py mutants.json [ids...]"""
import json, re, subprocess, sys, os, shutil
SRC = os.environ.get('MUT_SRC', '/verif/lean'); DST = '/tmp/mut/work'; OUT = '/tmp/mut/results.jsonl'
DECL = re.compile(r'^(?:@\[[^\]]*\]\s*)?(?:private |protected |noncomputable )*(theorem|lemma|example|def|instance|structure|inductive|abbrev)\b')
BOUND = re.compile(r'^(?:@\[|/--|/-!|private |protected |noncomputable |theorem|lemma|example|def|instance|structure|inductive|abbrev|end\b|section\b|namespace\b|variable|open\b|include\b|omit\b|set_option|attribute|mutual|universe|#)')

def sync():
    want = set()
    for d, ds, fs in os.walk(SRC):
        if '.lake' in ds: ds.remove('.lake')
        for f in fs:
            a = os.path.join(d, f); rel = os.path.relpath(a, SRC); want.add(rel); b = os.path.join(DST, rel)
            data = open(a, 'rb').read()
            if not os.path.exists(b) or open(b, 'rb').read() != data:
                os.makedirs(os.path.dirname(b), exist_ok=True); open(b, 'wb').write(data)
    for d, ds, fs in os.walk(DST):
        if '.lake' in ds: ds.remove('.lake')
        for f in fs:
            if os.path.relpath(os.path.join(d, f), DST) not in want: os.remove(os.path.join(d, f))

def build():
    r = subprocess.run(['lake', 'build'], cwd=DST, capture_output=True, text=True)
    return r.returncode, r.stdout + r.stderr

def stub(path, lines_bad):
    src = open(path).read().split('\n')
    starts = set(); names = []
    for ln in lines_bad:
        i = ln - 1
        while i >= 0 and not DECL.match(src[i]): i -= 1
        if i >= 0: starts.add(i)
    for i in sorted(starts, reverse=True):
        j = i + 1
        while j < len(src) and not BOUND.match(src[j]): j += 1
        text = '\n'.join(src[i:j])
        depth = 0; pos = None; k = 0
        while k < len(text):
            c = text[k]
            if c in '([{⟨': depth += 1
            elif c in ')]}⟩': depth -= 1
            elif depth == 0 and text.startswith(':=', k) and not re.search(r'\blet\s+[\w\']+\s*(:[^;\n]*)?$', text[:k].split('\n')[-1]):
                pos = k; break
            elif depth == 0 and text.startswith('\n  | ', k) : pos = k; break
            elif depth == 0 and text.startswith(' where\n', k) : pos = k; break
            k += 1
        m = re.match(r'(?:@\[[^\]]*\]\s*)?(?:private |protected |noncomputable )*(\w+)\s+([^\s:({\[]+)?', text)
        kind, name = m.group(1), (m.group(2) or 'example')
        if kind == 'example':
            names.append((kind, 'example@%d' % (i + 1))); src[i:j] = ['example : True := trivial', '']; continue
        if kind not in ('theorem', 'lemma') or pos is None:
            names.append(('STUCK', kind + ' ' + name)); continue
        names.append((kind, name))
        if text[pos:].lstrip(': =\n').startswith('sorry'):
            # the statement itself does not elaborate: drop it
            names.append(('STUCK', name)); continue
        src[i:j] = (text[:pos] + ':= sorry').split('\n') + ['']
    open(path, 'w').write('\n'.join(src))
    return names

def main():
    muts = json.load(open(sys.argv[1]))
    ids = set(sys.argv[2:])
    os.makedirs(DST, exist_ok=True)
    if not os.path.exists(DST + '/.lake'): shutil.copytree(SRC + '/.lake', DST + '/.lake')
    manifest = json.load(open('/verif/MANIFEST.json'))
    allth = [t for c in manifest['claims'] for t in c['theorems']]
    for m in muts:
        if ids and m['id'] not in ids: continue
        sync()
        v = open(DST + '/Verif.lean').read()  # the audit would reject the placeholder
        open(DST + '/Verif.lean', 'w').write(v.replace('import Verif.Audit\n', ''))
        p = DST + '/Verif/' + m['file']
        s = open(p).read()
        if s.count(m['old']) != m.get('count', 1):
            print(m['id'], 'PATTERN COUNT', s.count(m['old'])); continue
        open(p, 'w').write(s.replace(m['old'], m['new']))
        broken = []; status = 'ok'
        for it in range(40):
            rc, out = build()
            bad = {}
            for mm in re.finditer(r'^error: (Verif/\S+\.lean):(\d+):\d+', out, re.M):
                bad.setdefault(mm.group(1), set()).add(int(mm.group(2)))
            if rc == 0: break
            if not bad: status = 'build failed: ' + out[-500:]; break
            stuck = False
            for f, ls in bad.items():
                if f == 'Verif/' + m['file'] : pass
                for kind, name in stub(DST + '/' + f, ls):
                    if kind == 'STUCK': stuck = True; status = 'stuck at %s in %s' % (name, f)
                    else: broken.append(f.split('/', 1)[1][:-5] + ':' + name)
            if stuck: break
        res = {'id': m['id'], 'status': status, 'broken_lemmas': broken}
        if status == 'ok':
            a = 'import Verif\n' + '\n'.join('#print axioms ' + t for t in allth) + '\n'
            open('/tmp/mut/ax.lean', 'w').write(a)
            r = subprocess.run(['lake', 'lean', '/tmp/mut/ax.lean'], cwd=DST, capture_output=True, text=True)
            o = re.sub(r'\n\s+', ' ', r.stdout + r.stderr)
            failed = [t for t in allth if re.search(r"'%s' depends on axioms:.*sorryAx" % re.escape(t), o)]
            res['failed'] = [t.split('.')[-1] for t in failed]
            fp = {t.split('.')[-1][:3] for t in failed}
            res['survivors_in_touched'] = [t.split('.')[-1] for t in allth if t not in failed and t.split('.')[-1][:3] in (fp | set(m.get('props', [])))]
        with open(OUT, 'a') as f: f.write(json.dumps({**m, **res}) + '\n')
        print(m['id'], status, 'failed:', res.get('failed'), '\n   survivors:', res.get('survivors_in_touched'), '\n   broken:', broken[:12], flush=True)
main()
