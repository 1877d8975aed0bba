"""Regenerates lean/Verif.lean: imports every module under lean/Verif."""
import glob, os
root = os.path.dirname(os.path.dirname(os.path.abspath(__file__))) + '/lean/'
order = ['Model', 'Spec', 'Proof', 'Props', 'Conform']
mods = []
for d in order:
    mods += sorted('Verif.%s.%s' % (d, os.path.basename(f)[:-5]) for f in glob.glob(root + 'Verif/%s/*.lean' % d))
open(root + 'Verif.lean', 'w').write(''.join('import %s\n' % m for m in mods))
