import json
M=[]; N0=200
def m(defn, file, old, new, edit, claim, count=1):
    M.append(dict(id='M%03d'%(len(M)+1+N0), defn=defn, file='Verif/Model/%s.lean'%file, old=old, new=new, edit=edit, claim=claim, count=count))
F='Frontier'
m('Fr.riskVector',F,'| none => .error .keyError\n\n/-- Column','| none => .ok f.risks\n\n/-- Column','unknown label falls back to risks','unknown risk label raises KeyError')
m('Fr.riskVector',F,'if l = f.riskMeasure then .ok f.risks\n    else\n','\n','primary label not recognised','primary label selects the risks')
m('Fr.argminOn',F,'v i ≤ v j','v j ≤ v i','argmax instead of argmin','at_return picks the lowest risk')
m('Fr.argmaxOn',F,'v j ≤ v i','v i ≤ v j','argmin instead of argmax','at_risk picks the highest return')
m('Fr.minRisk',F,'match firstArgmin r with\n    | none => .error .valueError\n    | some i => .ok (f.pick r i)\n\n/-- `max_return','match firstArgmax r with\n    | none => .error .valueError\n    | some i => .ok (f.pick r i)\n\n/-- `max_return','argmax','min_risk is minimal')
m('Fr.minRisk',F,'| some i => .ok (f.pick r i)\n\n/-- `max_return','| some i => .ok (f.pick f.risks i)\n\n/-- `max_return','reports the primary risk','reported risk is the selected measure')
m('Fr.maxReturn',F,'firstArgmax f.returns','firstArgmax f.risks','max risk','max_return is maximal')
m('Fr.sharpe',F,'f.returns i - rf','f.returns i','rf ignored','tangency maximises the Sharpe ratio')
m('Fr.sharpe',F,'if f.risks i = 0 then ⊥ else','if False then ⊥ else','zero-risk ratio is 0 instead of -inf','zero-risk columns never win')
m('Fr.tangency',F,'if ∀ i, |f.risks i| ≤ 1 / 10 ^ 8','if ∃ i, |f.risks i| ≤ 1 / 10 ^ 8','any near-zero risk rejects','fails only if all risks vanish')
m('Fr.atRisk',F,'decide (r i ≤ maxRisk)','decide (r i < maxRisk)','strict budget','budget is inclusive')
m('Fr.atRisk',F,'f.returns with\n    | none => .error .infeasible\n    | some i => .ok (f.pick r i)\n\n/-- `at_return','r with\n    | none => .error .infeasible\n    | some i => .ok (f.pick r i)\n\n/-- `at_return','maximises risk instead of return','at_risk maximises the return')
m('Fr.atReturn',F,'fun i => decide (minReturn ≤ f.returns i)) r','fun i => decide (minReturn < f.returns i)) r','strict return floor','floor inclusive')
m('Fr.closestRisk',F,'|r i - target|','(r i - target)','absolute value dropped','closest risk')
m('Fr.percentiles',F,'((M : K) - 1)','(M : K)','ranks scaled by M','percentiles run from 0 to 1')
m('Fr.percentiles',F,'(argsort r).symm i','(argsort r) i','order used as ranks','percentiles monotone in risk')
m('Fr.normalizePercentile',F,'if 100 < x then','if 100 ≤ x then','100 rejected','percentiles up to 100 accepted')
m('Fr.normalizePercentile',F,'.ok (.fin (x / 100))','.ok (.fin x)','percent not scaled','50 means the median')
m('Fr.normalizePercentile',F,'else if x < 0 then .error .valueError\n','\n','negative percentile accepted','negative percentile raises')
m('Fr.runMax',F,'j ≤ i','i ≤ j','maximum over later points','monotone')
m('Fr.cross',F,'- (y i2 - y i1) * (x i - x i1)','+ (y i2 - y i1) * (x i - x i1)','sign in cross product','convex envelope')
m('Fr.popWhile',F,'cross x y i1 i2 i ≤ eps','cross x y i1 i2 i ≥ eps','upper envelope','convex envelope below the data')
m('Fr.interpDesc',F,'(p.2 - q.2) / (p.1 - q.1) * (v - q.1)','(p.2 - q.2) / (p.1 - q.1) * v','interpolation offset','envelope interpolates')
m('Fr.convexify',F,'keep.length < M then','keep.length ≤ M then','(equivalent-ish) interpolate even when all kept','convex envelope')
m('Fr.convexify',F,'let y := runMax y\n','\n','running maximum skipped','risks non-decreasing')
m('Fr.cvarFrontier',F,'weights := fun i j => W i (σ j)','weights := fun i j => W i j','weights not reordered','columns stay aligned')
m('Fr.cvarFrontier',F,'("CVaR (raw)", fun j => risk (σ j))','("CVaR (raw)", fun j => risk j)','raw risk not reordered','columns stay aligned')
m('Fr.cvarFrontier',F,'risks := if enforce then','risks := if !enforce then','flag inverted','convexity enforced iff requested')
m('Fr.setupConstraints',F,'| some c => Con.build (N : ℤ) c\n  | none => Con.build (N : ℤ) ⟨longOnly','| some c => Con.build (N : ℤ) Con.defaultSpec\n  | none => Con.build (N : ℤ) ⟨longOnly','given constraints ignored','constructor constraints hold')
m('Fr.resolveConstraints',F,'match perCall with\n  | some c => Con.build (N : ℤ) c','match perCall with\n  | some c => Con.build (N : ℤ) Con.defaultSpec','per-call constraints ignored','per-call constraints hold')
m('Fr.resolveConstraints',F,'| none, none => Con.build','| none, _ => Con.build','replaced by default when only equalities are stored','stored constraints hold')
E_='Ensembles'
m('Ens.seriesEntry',E_,'| some .nan => .error .valueError\n','\n','NaN weight accepted by alignment','NaN weights raise (scaleWeights still rejects)')
m('Ens.seriesEntry',E_,'| Option.none => .error .valueError\n\n/-- `weights_vector','| Option.none => .ok (.fin 0)\n\n/-- `weights_vector','missing label means 0','missing labels raise')
m('Ens.alignWeights',E_,'then mapE (seriesEntry l) names else','then .ok (l.map Prod.snd) else','positional','weights aligned by label')
m('Ens.scaleWeights',E_,'if x.sum ≤ 0 then','if x.sum < 0 then','zero sum accepted','non-positive sums raise')
m('Ens.scaleWeights',E_,'.ok (x.map (· / x.sum))','.ok x','not normalised','weights sum to one')
m('Ens.normalizeWeights',E_,'(1 / (num : K))','1','uniform weights not divided','weights sum to one')
m('Ens.combine',E_,'∑ k, E i k * x k','∑ k, E i k','weights ignored','weighted average')
m('Ens.dictSet',E_,'else d ++ [(k, v)]','else d','new keys dropped','options are applied')
m('Ens.withOptions',E_,'(r.1, dictUpdate [] previous)','(r.1, r.2)','options not restored','solver options restored')
m('Ens.withOptions',E_,'| some o => dictUpdate g o','| some o => dictUpdate [] o','overrides replace all options','options merged')
m('Ens.folds',E_,'[Finset.univ.filter (fun k : Fin S => (L - 1) * size ≤ (k : ℕ))]','[Finset.univ.filter (fun k : Fin S => (L - 1) * size ≤ (k : ℕ) ∧ (k : ℕ) < L * size)]','remainder samples belong to no fold','folds partition the samples')
m('Ens.masked',E_,'if k ∈ F then 0 else E i k','if k ∈ F then E i k else 0','mask inverted','left-out fold')
m('Ens.linearPart',E_,'/ ((max F.card 1 : ℕ) : K)','','sum instead of mean','fold target is the average')
m('Ens.stackQp',E_,'q := fun a => -2 *','q := fun a => 2 *','sign of the linear term','stacking minimises the leave-fold-out error')
m('Ens.stackQp',E_,'G := fun a b => -(if','G := fun a b => (if','sign of the nonnegativity rows','stacking weights nonnegative')
m('Ens.exposureStacking',E_,'else if L < 2 then','else if L < 1 then','one fold accepted','fewer than two folds raise')
m('Ens.exposureStacking',E_,'else if (S : ℤ) < L then (.error .valueError, g)\n','\n','more folds than samples accepted','too many folds raise')
m('Ens.exposureStacking',E_,'| .ok none => (.error .runtimeError, r.2)','| .ok none => (.error .valueError, r.2)','wrong exception','solver failure raises RuntimeError')
m('Ens.buildSelector',E_,'kw.riskFree.getD 0','kw.riskFree.getD 1','default risk-free rate 1','tangency default rate 0')
m('Ens.buildSelector',E_,'| some m => .ok (.riskTarget m kw.riskLabel,','| some m => .ok (.riskTarget m none,','risk label ignored','risk_target uses the label')
m('Ens.buildSelector',E_,'if key ∈ ["max_return", "maximum_return"] then .ok (.maxReturn, kw)','if key ∈ ["max_return", "maximum_return"] then .ok (.minRisk, kw)','max_return builds min_risk','selector names')
m('Ens.resolveLabel',E_,'&& isEstimation f.riskMeasure','','volatility preferred always','default label is the primary risk')
m('Ens.pyIndex',E_,'if i < 0 then i + M else i','i','negative indices rejected','negative indices count from the end')
m('Ens.callSelector',E_,'f.closestRisk t (resolveLabel f l)','f.atRisk t (resolveLabel f l)','risk_match behaves like risk_target','risk_match is the nearest risk')
m('Ens.determineFolds',E_,'min 3 (total : ℤ)','min 2 (total : ℤ)','default two folds','default folds')
m('Ens.determineFolds',E_,'max 1 (min sf total)','sf','folds not clipped','folds clipped to the number of specs')
m('Ens.cleanSelection',E_,'| some [i] => .ok i\n  | some _ => .error .valueError','| some (i :: _) => .ok i\n  | some _ => .error .valueError','first of several columns used','only one column per spec')
m('Ens.cleanSelection',E_,'firstArgmin f.f.risks','firstArgmax f.f.risks','most risky column','default column is the min-risk one')
m('Ens.frontierOf',E_,'rs.reverse.lookup','rs.lookup','(differs only for repeated names)','last frontier of a repeated name')
m('Ens.oneEnsemble',E_,'averageExposures (matrixOf cols) names w','averageExposures (matrixOf cols) names .none','ensemble weights ignored','average uses the given weights')
m('Ens.ensembleColumns',E_,'mapE sampleColumn (fs.zip cs)','mapE sampleColumn (fs.zip cs.reverse)','columns misaligned','each spec contributes its own selection')
m('Ens.assemble',E_,'if mode ≠ "selected" ∧ mode ≠ "frontier" then .error .valueError\n      else if','if False then .error .valueError\n      else if','unknown mode treated as frontier','unknown combine mode raises')
json.dump(M,open('/tmp/scratch/m3.json','w'))
print(len(M))
