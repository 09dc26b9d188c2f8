"""Adds claims to MANIFEST.json: manifest.add('C01', ['theorem', ...], status, note)."""
import json
P = '/verif/MANIFEST.json'

def add(c, ths, status='proved', note=''):
    m = json.load(open(P))
    m['claims'] = [x for x in m['claims'] if x['property'] != c]
    m['claims'].append({"property": c, "status": status,
                        "theorems": ["QuDiet." + t for t in ths], "note": note})
    m['claims'].sort(key=lambda x: int(x['property'][1:]))
    with open(P, 'w') as f:
        f.write('{"claims": [\n ' + ',\n '.join(json.dumps(x) for x in m['claims']) + '\n]}\n')
