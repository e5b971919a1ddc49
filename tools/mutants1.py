import json
M=[]
def m(defn, file, old, new, edit, claim, count=1):
    M.append(dict(id='M%03d'%(len(M)+1), defn=defn, file='Verif/Model/%s.lean'%file, old=old, new=new, edit=edit, claim=claim, count=count))
C='Constraints'
m('Con.checkPair',C,'if a > b then .error','if a ≥ b then .error','lower > upper test becomes lower >= upper','constraint validation accepts exactly the consistent pairs')
m('Con.longBlock',C,'if longOnly then ⟨eyeRows n (-1), List.replicate n 0⟩','if longOnly then ⟨eyeRows n 1, List.replicate n 0⟩','sign of long-only rows flipped','long_only means w >= 0')
m('Con.pairBlock',C,'List.replicate n (-a)','List.replicate n a','lower bound not negated on the right-hand side','feasible set is exactly the specified one')
m('Con.assetBlock',C,'| some b => ⟨[unitRow n idx 1], [b]⟩','| some b => ⟨[], []⟩','upper bound of a per-asset pair dropped','feasible set is exactly the specified one')
m('Con.dictEntry',C,'if ¬ (0 ≤ e.1 ∧ e.1 < n) then .error .indexError\n  else\n    match checkPair','if ¬ (0 ≤ e.1 ∧ e.1 ≤ n) then .error .indexError\n  else\n    match checkPair','off-by-one in the index check of a bounds mapping','out-of-range asset indices are rejected')
m('Con.relEntry',C,'if (m : ℤ) = e.2.1 then -1 else if (m : ℤ) = e.1 then 1 else 0','if (m : ℤ) = e.2.1 then 1 else if (m : ℤ) = e.1 then -1 else 0','relative bound applied to (j, i) instead of (i, j)','relative bound means w_i <= w_j + k')
m('Con.relEntry',C,'else if e.1 = e.2.1 then .error .valueError\n','\n','self-relative bound no longer rejected','relative bound of an asset with itself raises')
m('Con.groupEntry',C,'[hi, -lo]','[hi, lo]','group floor not negated','group constraint bounds the group weight between lo and hi')
m('Con.groupEntry',C,'if lo > hi then .error .valueError\n        else .ok','if False then .error .valueError\n        else .ok','inconsistent group bounds accepted','lo > hi raises')
m('Con.rowEntry',C,'if e.1.length ≠ n then','if e.1.length < n then','only short rows rejected','rows of the wrong length raise')
m('Con.totalBlock',C,'⟨[fun _ => 1], [v]⟩','⟨[fun _ => 1], [1]⟩','total_weight ignored, always 1','weights sum to total_weight')
m('Con.build',C,'if nAssets ≤ 0 then','if nAssets < 0 then','n_assets = 0 accepted','non-positive asset counts raise')
m('Con.build',C,'(bb.append (rb.append (gb.append ib)))','(bb.append (rb.append gb))','additional inequality rows dropped','every inequality row of the specification is enforced')
m('Con.build',C,'b := orNone (!returnNoneIfEmpty) a.rhs','b := orNone (!returnNoneIfEmpty) g.rhs','equality right-hand side taken from h','feasible set is exactly the specified one')
m('Con.orNone',C,'if keep then some [] else none','if keep then none else some []','return_none_if_empty inverted','empty blocks are None exactly when requested')
m('Con.defaultSpec',C,'⟨true, some (.fin 1)','⟨false, some (.fin 1)','default constraints allow shorts','default portfolio is long-only')
D='Discrete'
m('Discrete.lotOf',D,'(l.lookup k).getD 1','(l.lookup k).getD 0','missing lot size means 0','missing lot size defaults to 1')
m('Discrete.ofRows',D,'(rows.get i).w / tw','(rows.get i).w','weights not renormalised after dropping zeros','targets sum to one')
m('Discrete.mkInput',D,'else if total ≤ 0 then .error .valueError','else if total < 0 then .error .valueError','total_value = 0 accepted','non-positive total value raises')
m('Discrete.mkInput',D,'decide (r.price ≤ 0)','decide (r.price < 0)','zero price accepted','non-positive prices raise')
m('Discrete.mkInput',D,'if tw ≤ 0 then .error','if tw < 0 then .error','zero net weight accepted','non-positive weight sum raises')
m('Discrete.mkInput',D,'weights.any (fun p => (prices.lookup p.1).isNone)','weights.all (fun p => (prices.lookup p.1).isNone)','only rejects when every price is missing','missing prices raise')
m('Discrete.buildResult',D,'let leftover := inp.total - ∑ i, values i','let leftover := inp.total','leftover not reduced by purchases','leftover = total - invested')
m('Discrete.buildResult',D,'else if leftover < 0 then .error .runtimeError\n','\n','overspending not rejected','result never overspends')
m('Discrete.buildResult',D,'∑ i, |inp.w i - achieved i|','∑ i, (inp.w i - achieved i)','tracking error without absolute value','tracking error is the L1 distance')
m('Discrete.buildResult',D,'values i / inp.total\n  let te','values i / (inp.total - leftover)\n  let te','achieved weights relative to invested amount','achieved weight = value / total')
m('Discrete.floorStep',D,'if lotCost > st.2 then st','if False then st','no affordability test in the floor pass','floor pass semantic (skips unaffordable first lots)')
m('Discrete.floorStep',D,'⌊targetCash / lotCost⌋','⌈targetCash / lotCost⌉','floor pass rounds up','greedy never overspends')
m('Discrete.floorStep',D,'st.1 i + lots * s.lot i','st.1 i + lots','lots not multiplied by the lot size','share counts are multiples of the lot size / cash conservation')
m('Discrete.step',D,'cash := st.cash - buy * cost','cash := st.cash - cost','cash reduced by one lot only','greedy conserves cash')
m('Discrete.step',D,'iter := st.iter + 1','iter := st.iter','iteration counter not advanced','greedy terminates')
m('Discrete.step',D,'let buy := min possible (max target 1)','let buy := max target 1','purchase not capped by cash','greedy never overspends')
m('Discrete.step',D,'unaff := st.unaff.erase c','unaff := ∅','unaffordable set reset after each purchase','(behaviour change, termination bound)')
m('Discrete.markUnaffordable',D,'if u.card = n then','if u.card = n + 1 then','break when all assets are unaffordable never fires','greedy terminates')
m('Discrete.allocateGreedy',D,'| .error e => if mode = .milp then .error e else here','| .error e => if mode = .auto then .error e else here','auto raises and milp swallows the fallback failure','auto falls back to the greedy result')
m('Discrete.allocateGreedy',D,'if inp.hasShorts then mip','if False then mip','shorts not routed to the MILP','short positions are handled by the MILP')
m('Discrete.allocateGreedy',D,'st.shares (σ.symm i)','st.shares (σ i)','share vector mis-aligned by label','shares are reported for the right asset')
m('Discrete.Input.maxLots',D,'⌊inp.total / inp.ppl i⌋ else 0) + 1','⌊inp.total / inp.ppl i⌋ else 0)','lot cap one lower','MILP optimal among all integer allocations of the documented box')
m('Discrete.MipFeasible',D,'budget : ∑ i, inp.ppl i * p.x i + p.r = inp.total','budget : ∑ i, inp.ppl i * p.x i - p.r = inp.total','cash enters the budget with the wrong sign','MILP never overspends')
m('Discrete.MipFeasible',D,'lower : ∀ i, -(inp.ppl i * p.x i) - p.u i ≤ -inp.target i','lower : ∀ i, -(inp.ppl i * p.x i) ≤ 0','shortfall not penalised','MILP minimises the L1 tracking error')
m('Discrete.allocateMip',D,'p.x i * inp.lot i','p.x i','lots reported as shares','share counts are multiples of the lot size')
m('Discrete.parseMethod',D,'∨ m = "lp"','','alias lp dropped','documented aliases accepted')
json.dump(M,open('/tmp/scratch/m1.json','w'))
print(len(M))
