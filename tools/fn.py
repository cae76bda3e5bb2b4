import re,glob,os
allt=''.join(open(f).read() for f in glob.glob('/verif/lean/Verif/**/*.lean',recursive=True))+open('/verif/DESIGN.md').read()
for p in sorted(glob.glob('/repo/src/**/*.?pp',recursive=True)):
    t=open(p).read()
    names=set()
    for m in re.finditer(r'^[ \t]*(?:template[^\n]*\n[ \t]*)?(?:KOKKOS_\w+\s+)?(?:static |inline |constexpr |virtual )*[\w:<>&\*, ]+?[ \*&]((?:\w+::)?\w+)\(([^;{}]*?)\)\s*(?:const)?\s*(?:->[^{]*)?\{',t,re.M):
        n=m.group(1).split('::')[-1]
        if n in('if','for','while','switch','return','par_for','PARTHENON_FAIL','sizeof','defined'): continue
        names.add(n)
    miss=[n for n in sorted(names) if not re.search(r'\b'+re.escape(n)+r'\b',allt)]
    if miss: print(os.path.relpath(p,'/repo/src'),miss)
