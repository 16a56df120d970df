"""Write lean/Verif.lean: one import per module under lean/Verif."""
import glob, os
root = os.path.dirname(os.path.dirname(os.path.abspath(__file__))) + '/lean/'
mods = sorted(p[len(root):-5].replace('/', '.') for p in glob.glob(root + 'Verif/**/*.lean', recursive=True))
open(root + 'Verif.lean', 'w').write(''.join(f'import {m}\n' for m in mods))
