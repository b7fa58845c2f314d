"""Regenerates MANIFEST.json from the theorem names in lean/Verif/Props and the notes below."""
import glob, json, os, re
ROOT = os.path.dirname(os.path.dirname(os.path.abspath(__file__)))
NOTES = json.load(open(os.path.join(ROOT, 'tools', 'notes.json')))
thms = {}
for f in sorted(glob.glob(ROOT + '/lean/Verif/Props/**/*.lean', recursive=True)):
    ns = []
    for l in open(f):
        m = re.match(r'namespace (\S+)', l)
        if m:
            ns.append(m.group(1))
        m = re.match(r'end (\S+)', l)
        if m and ns and ns[-1] == m.group(1):
            ns.pop()
        m = re.match(r'(?:@\[[^\]]*\] )?(?:protected |noncomputable )*theorem (C\d\d+)(\S*)', l)
        if m:
            thms.setdefault(m.group(1), []).append('.'.join(ns + [m.group(1) + m.group(2)]))
claims = []
for line in open(ROOT + '/properties.jsonl'):
    p = json.loads(line)['id']
    if p in thms:
        n = NOTES.get(p, {})
        claims.append({'property': p, 'status': n.get('status', 'proved'), 'theorems': thms[p],
                       'note': n.get('note', '')})
    elif p in NOTES:
        claims.append({'property': p, 'status': NOTES[p]['status'], 'theorems': [],
                       'note': NOTES[p]['note']})
json.dump({'claims': claims}, open(ROOT + '/MANIFEST.json', 'w'), indent=1, ensure_ascii=False)
print(len(claims), 'claims;', [c['property'] for c in claims if c['status'] == 'partial'])
