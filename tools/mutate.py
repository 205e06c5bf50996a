"""Apply one-token wrong edits to the model definitions in a scratch copy and see whether some proof fails.

usage: mutate.py WORKDIR PRISTINE OUT [SHARD NSHARDS] [PER_DEF] [FILES...]

WORKDIR and PRISTINE are built copies of /verif/lean outside /verif. One JSON line per wrong program is appended to OUT:
`failed` are the declarations of the first module that no longer builds; `invalid` means that the edited definition
itself does not elaborate; `survived` means that everything still builds.
"""
import sys, re, os, json, random, subprocess, hashlib, time, shutil

MODEL = """Heap PQ Queue QueueFetch Routing Net UnionFind Dict Graph GraphNet NetData Colour NetColour Info GraphGen GraphDraw
EdgeLength GraphShow NetRun""".split()

OPS = [
    (r' < ', ' ≤ '), (r' ≤ ', ' < '), (r' > ', ' ≥ '), (r' = ', ' ≠ '), (r' ≠ ', ' = '), (r' == ', ' != '),
    (r' \+ 1\b', ''), (r' - 1\b', ''), (r' \+ 1\b', ' + 2'), (r' \+ ', ' - '), (r' - ', ' + '), (r' \* ', ' + '), (r' / ', ' * '),
    (r'\btrue\b', 'false'), (r'\bfalse\b', 'true'), (r' && ', ' || '), (r' \|\| ', ' && '), (r' ∧ ', ' ∨ '), (r' ∨ ', ' ∧ '),
    (r'\bmax\b', 'min'), (r'\bmin\b', 'max'), (r'\.1\b', '.2'), (r'\.2\b', '.1'), (r'\.fst\b', '.snd'), (r'\.snd\b', '.fst'),
    (r'(?<=[ (\[])0\b', '1'), (r'(?<=[ (\[])1\b', '0'), (r'(?<=[ (\[])1\b', '2'), (r'(?<=[ (\[])2\b', '1'),
    (r'\barrivals\b', 'departures'), (r'\bdepartures\b', 'arrivals'), (r'\bnumSystem\b', 'numTotal'), (r'\bnumTotal\b', 'numSystem'),
    (r'(\b[\w.]+) \+\+ (\[[^\[\]]*\]|[\w.]+)', r'\2 ++ \1'), (r' \+\+ \[[^\[\]]*\]', ''), (r'\bany\b', 'all'), (r'\ball\b', 'any'),
    (r'\btail\b', 'dropLast'), (r'\bgetLast\?', 'head?'), (r'\bhead\?', 'getLast?'), (r'\bsome\b', 'none'),
    (r'keyError', 'valueError'), (r'typeError', 'valueError'), (r'valueError', 'typeError'), (r'indexError', 'keyError'),
    (r'\bcurrentT\b', 'time'), (r'\bs\.time\b', 's.currentT'), (r'\bif\b(?! h)', 'if ¬'), (r'\.filter fun', '.takeWhile fun'),
    (r'\bstart\b', 'arr'), (r'\barr\b', 'start'), (r'\bdep\b', 'start'),
]


def defs(path):
    lines = open(path, encoding='utf8').read().split('\n')
    i, res = 0, []
    while i < len(lines):
        m = re.match(r'(?:@\[[^\]]*\] )?(?:noncomputable )?def (\S+)', lines[i])
        if m:
            j = i + 1
            while j < len(lines) and (lines[j].startswith(' ') or lines[j].startswith('|')):
                j += 1
            k = i - 1
            while k >= 0 and lines[k].startswith('@'):
                k -= 1
            doc = ''
            if k >= 0 and lines[k].rstrip().endswith('-/'):
                b = k
                while not lines[b].startswith('/--') and b > 0:
                    b -= 1
                doc = '\n'.join(lines[b:k + 1])
            res.append((m.group(1), i, j, doc))
            i = j
        else:
            i += 1
    return lines, res


def body_start(text):
    m = re.search(r':=|\bwhere\b|\n\s*\|', text)
    return m.start() if m else 0


def mutants(path):
    lines, ds = defs(path)
    for name, i, j, doc in ds:
        text = '\n'.join(lines[i:j])
        b = body_start(text)
        out = []
        for pat, rep in OPS:
            for m in re.finditer(pat, text):
                if m.start() < b:
                    continue
                if pat == r' = ' and text[m.end():m.end() + 2] == '>':
                    continue
                new = text[:m.start()] + m.expand(rep) + text[m.end():]
                out.append((pat, new))
        # drop a field of a record update spread over lines
        tl = text.split('\n')
        for k, l in enumerate(tl):
            if k and re.match(r'\s+\w+ := \S', l) and not re.search(r'\b(if|match|with|fun)\b', l):
                out.append(('dropfield', '\n'.join(tl[:k] + tl[k + 1:])))
        # drop one field of an inline record update
        for m in re.finditer(r'(with |, )(\w+ := [^,{}]+)(, | })', text):
            if m.start() < b:
                continue
            if m.group(1) == 'with ' and m.group(3) == ', ':
                out.append(('dropfield', text[:m.start()] + 'with ' + text[m.end():]))
            elif m.group(1) == ', ':
                out.append(('dropfield', text[:m.start()] + m.group(3) + text[m.end():]))
        # swap the branches of a one-line if
        for m in re.finditer(r'then ([^\n]+?) else ([^\n]+?)(?=$|\n|,|\))', text):
            if m.start() >= b:
                out.append(('swapif', text[:m.start()] + 'then ' + m.group(2) + ' else ' + m.group(1) + text[m.end():]))
        seen, uniq = set(), []
        for o, n in out:
            if n != text and n not in seen:
                seen.add(n)
                uniq.append((o, n))
        yield name, i, j, doc, text, uniq


def decl_at(path, line):
    lines = open(path, encoding='utf8').read().split('\n')
    for k in range(min(line, len(lines)) - 1, -1, -1):
        m = re.match(r'(?:@\[[^\]]*\] )?(?:private |protected |noncomputable )*(theorem|lemma|def|instance|example|abbrev|inductive|structure)\b ?(\S*)', lines[k])
        if m:
            return m.group(2) if m.group(1) not in ('example', 'instance') else '%s@%s:%d' % (m.group(1), os.path.basename(path), k + 1)
    return '?'


def build(work):
    p = subprocess.Popen(['lake', 'build'], cwd=work, stdout=subprocess.PIPE, stderr=subprocess.STDOUT, text=True,
                         start_new_session=True)
    errs, module = [], None
    for line in p.stdout:
        m = re.match(r'. \[\d+/\d+\] \w+ (\S+)', line)
        if m and errs and m.group(1) != module:
            break
        if m:
            module = m.group(1)
        m = re.match(r'error: (Verif\S*\.lean):(\d+):', line)
        if m:
            errs.append((m.group(1), int(m.group(2))))
        if line.startswith('Some required targets'):
            break
    if errs:
        try:
            os.killpg(p.pid, 9)
        except ProcessLookupError:
            pass
    p.wait()
    return errs, p.returncode


def sync(src, dst):
    for root, _, names in os.walk(src):
        r = os.path.join(dst, os.path.relpath(root, src))
        os.makedirs(r, exist_ok=True)
        for x in set(os.listdir(r)) - set(os.listdir(root)):
            if os.path.isfile(os.path.join(r, x)):
                os.remove(os.path.join(r, x))
        for x in names:
            a, b = os.path.join(root, x), os.path.join(r, x)
            if os.path.islink(a):
                continue
            u = os.stat(a)
            v = os.stat(b) if os.path.exists(b) else None
            if v is None or (u.st_size, u.st_mtime_ns) != (v.st_size, v.st_mtime_ns):
                shutil.copy2(a, b)


def main():
    work, pristine, out = sys.argv[1:4]
    shard, n = (int(sys.argv[4]), int(sys.argv[5])) if len(sys.argv) > 5 else (0, 1)
    per = int(sys.argv[6]) if len(sys.argv) > 6 else 4
    files = sys.argv[7:] or MODEL
    done = set()
    if os.path.exists(out):
        done = {json.loads(l)['key'] for l in open(out)}
    todo = []
    for f in files:
        path = os.path.join(pristine, 'Verif', f + '.lean')
        for name, i, j, doc, text, ms in mutants(path):
            if '.py' not in doc and 'lines' not in doc and 'numpy' not in doc:
                continue
            rnd = random.Random(f + name)
            rnd.shuffle(ms)
            # first one of each operator
            first, rest, seen = [], [], set()
            for o, t in ms:
                (rest if o in seen else first).append((o, t))
                seen.add(o)
            for r, (o, t) in enumerate((first + rest)[:per]):
                todo.append((r, f, name, i, j, text, o, t))
    todo.sort(key=lambda x: (x[0], hashlib.md5((x[1] + x[2]).encode()).hexdigest()))
    todo = todo[shard::n]
    print(len(todo), 'wrong programs', flush=True)
    if os.environ.get('DRY'):
        return
    for r, f, name, i, j, text, o, t in todo:
        key = hashlib.md5((f + name + t).encode()).hexdigest()
        if key in done:
            continue
        path = os.path.join(work, 'Verif', f + '.lean')
        src = open(os.path.join(pristine, 'Verif', f + '.lean'), encoding='utf8').read()
        lines = src.split('\n')
        open(path, 'w', encoding='utf8').write('\n'.join(lines[:i] + t.split('\n') + lines[j:]))
        t0 = time.time()
        errs, rc = build(work)
        end = i + len(t.split('\n'))
        if errs and any(p == 'Verif/%s.lean' % f and i < l <= end for p, l in errs):
            status = 'invalid'
        elif errs:
            status = 'failed'
        elif rc == 0:
            status = 'survived'
        else:
            status = 'odd'
        failed = sorted({decl_at(os.path.join(work, p), l) for p, l in errs})
        old = [a for a, b in zip(text.split('\n'), t.split('\n')) if a != b][:3]
        new = [b for a, b in zip(text.split('\n'), t.split('\n')) if a != b][:3]
        rec = {'key': key, 'file': f, 'def': name, 'op': o, 'old': old, 'new': new, 'status': status,
               'module': errs[0][0] if errs else None, 'failed': failed, 'sec': round(time.time() - t0, 1),
               'oldtext': text, 'newtext': t}
        open(out, 'a').write(json.dumps(rec, ensure_ascii=False) + '\n')
        sync(pristine, work)


main()
