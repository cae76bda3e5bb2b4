EXTRA=[]
def P(id,title,statement,quantifier,why,anchors,model,how):
    EXTRA.append((dict(id=id,title=title,statement=statement,quantifier=quantifier,why_tests_cant=why,anchors=anchors),[model,how]))
INF="The claim ranges over an infinite set of inputs; a unit test samples a handful of them."
exec(open('/tmp/w/extra_list.py').read())
