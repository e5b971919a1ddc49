import json
M=[]; N0=800
def m(defn, file, old, new, edit, claim, count=1):
    M.append(dict(id='M%03d'%(len(M)+1+N0), defn=defn, file='Verif/Model/%s.lean'%file, old=old, new=new, edit=edit, claim=claim, count=count))
S='Samples'
m('Ens.entryCols',S,'if s.m = 0 then .error .valueError else','if False then .error .valueError else','empty matrix accepted','empty samples raise')
m('Ens.entryCols',S,'| some k => .ok [s.col k]\n    | some [i]','| some k => .ok [s.col (Fin.rev k)]\n    | some [i]','wrong default column','default is the lowest-risk column')
m('Ens.entryCols',S,'| some _ => .error .valueError','| some _ => .ok []','several columns silently dropped','exactly one column per frontier')
m('Ens.mergeNames',S,'if e = a :: l then .ok (some e) else .error .valueError','.ok (some e)','label mismatch ignored','different labels raise')
m('Ens.mergeNames',S,'if e.length = dim then .ok (some e) else .error .valueError','.ok (some e)','dimension mismatch ignored','unlabelled entry of another size raises')
m('Ens.collectLoop',S,'collectLoop rest (cols ++ c) names\'','collectLoop rest c names\'','columns overwritten','all entries contribute')
m('Ens.collectSamples',S,'if sels.length ≠ entries.length then .error .valueError\n    else','if False then .error .valueError\n    else','selection count not tested','one selection per frontier')
m('Ens.collectSamples',S,'| [] => .error .valueError\n  | first :: _','| [] => .ok ([], none)\n  | first :: _','empty input accepted','no entries raises')
m('Ens.unionLabels',S,'s.map Prod.fst ++ (unionLabels rest).filter (fun a => a ∉ s.map Prod.fst)','s.map Prod.fst','inner labels only','outer join')
m('Ens.concatCell',S,'| none => .nan','| none => .fin 0','missing asset read as zero','(fixes the bug: NaN for missing assets is the documented finding)')
m('Ens.nanMul',S,'.fin (a * y)','.fin a','member weight ignored','weighted average')
m('Ens.nanDot',S,'.foldr nanAdd (.fin 0)','.foldr nanAdd (.fin 1)','starts at one','weighted average')
m('Ens.averageSelected',S,'if sel = [] then .error .valueError\n  else','if False then .error .valueError\n  else','no selections accepted','empty selection raises')
F='FrontierEnsembles'
m('Ens.rowCount',F,'| e :: _ => e.set.n','| e :: _ => e.set.m','columns counted','number of assets')
m('Ens.hstack',F,'(cols.get k).getD i 0','(cols.get k).getD (i + 1) 0','shifted rows','matrix of the columns')
m('Ens.seriesFromVector',F,'| some l => if l.length = v.length then .ok (v, some l) else .error .valueError','| some _ => .ok (v, none)','labels dropped','labels kept')
m('Ens.averageFrontiers',F,'match collectSamples frontiers selections with\n  | .error e => .error e\n  | .ok (cols, names) =>\n    match averageExposures','match collectSamples frontiers none with\n  | .error e => .error e\n  | .ok (cols, names) =>\n    match averageExposures','selections ignored','selections honoured')
m('Ens.averageFrontiers',F,'averageExposures (hstack (rowCount frontiers) cols) none w','averageExposures (hstack (rowCount frontiers) cols) none .none','weights ignored','weights honoured')
m('Ens.exposureStackFrontiers',F,'| .error e => (.error e, g)\n','| .error e => (.error e, [])\n','options cleared on error','solver options restored')
m('Ens.Held.entry',F,'⟨h.names, h.n, h.m, h.f.weights⟩','⟨none, h.n, h.m, h.f.weights⟩','labels dropped','labels kept')
m('Ens.percentileSelection',F,'indexAtPercentile (argsort h.m) pct label','indexAtPercentile (argsort h.m) pct none','risk label ignored','requested risk measure')
T='FrontierTable'
m('Fr.selectWeights',T,'| none => .ok (List.finRange h.m)','| none => .ok (List.finRange h.m).reverse','reversed','columns in frontier order')
m('Fr.frameLabels',T,'if l.length ≠ count then .error .valueError else .ok (l.map','if False then .error .valueError else .ok (l.map','label count not tested','one label per column')
m('Fr.frameLabels',T,'| some s => .ok (s.map ColLabel.pos)','| some _ => .ok ((List.range count).map (fun i : ℕ => ColLabel.pos i))','renumbered','selected columns keep their positions')
m('Fr.toFrame',T,'.ok (h.names, ls.zip','.ok (none, ls.zip','labels dropped','asset labels kept')
m('Fr.assetLabels',T,'"Asset_" ++ i.repr','"Asset_" ++ (i + 1).repr','numbering from one','default names Asset_0..')
m('Fr.asDiscrete',T,'column < 0 ∨ (h.m : ℤ) ≤ column then','(h.m : ℤ) ≤ column then','negative column wraps','negative column raises')
m('Fr.asDiscrete',T,'prices total lots method maxIter','prices (total + 1) lots method maxIter','value changed','portfolio value passed on')
C='ConstraintsDict'
m('Con.setItem',C,'| .totalWeight t => { c with totalWeight := t }','| .totalWeight _ => c','total weight ignored','recognised keys are honoured')
m('Con.setItem',C,'| .eqRows l => { c with eqRows := l }','| .eqRows l => { c with ineqRows := l.map (fun r => (r.1, r.2)) }','equality rows become inequalities','recognised keys are honoured')
m('Con.fromDict',C,'d.foldl setItem defaultSpec','d.foldl setItem { defaultSpec with longOnly := false }','default not long-only','defaults of the dataclass')
m('Con.toMatrices',C,'build nAssets c','build nAssets { c with groups := [] }','groups dropped','same matrices as the constructor arguments')
D='DataHelpers'
m('Data.fdiv',D,'if x = 0 then .nan else if 0 < x then .posInf else .negInf\n','.fin 0\n','division by zero gives 0','zero price')
m('Data.flog',D,'else if x = 0 then .negInf else .nan','else if x = 0 then .negInf else .fin 0','log of negative is 0','negative ratio is missing')
m('Data.fpred',D,'| .fin x => .fin (x - 1)','| .fin x => .fin x','gross return','simple return is ratio minus one')
m('Data.method?',D,'if s = "simple" then some .simple else none','some .simple','unknown method accepted','unknown method raises')
m('Data.ret',D,'| .log => flog (fdiv after before)','| .log => flog (fdiv before after)','reversed ratio','log return')
m('Data.returnRows',D,':: returnRows m (q :: rest)',':: returnRows m rest','every other pair','one row per consecutive pair')
m('Data.ffill',D,'r\' :: ffill r\' rest','r\' :: ffill last rest','last observation not updated','forward fill')
m('Data.fill?',D,'else if s = "drop" then some .drop\n  else none','else some .drop','unknown fill accepted','unknown fill raises')
m('Data.fillRows',D,'| .bfill => fillZero (ffill (fun _ => .nan) rows.reverse).reverse','| .bfill => fillZero (ffill (fun _ => .nan) rows)','forward instead of backward','backward fill')
m('Data.fillRows',D,'| .drop => fillZero (rows.filter (fun r => decide (∀ i, isNan (r i) = false)))','| .drop => fillZero (rows.filter (fun r => decide (∃ i, isNan (r i) = false)))','rows with any value kept','rows with a missing value dropped')
m('Data.dropDate',D,'if d = "" ∨ f.indexName = some d then .ok f.cols','if d = "" then .ok f.cols','index name not recognised','date index accepted')
m('Data.dropDate',D,'(f.cols.filter (fun c => decide (c.1 ≠ d)))','f.cols','date column kept','date column is not a price')
m('Data.pickCol',D,'| none => .error .valueError\n\n/-- Column selection','| none => .error .keyError\n\n/-- Column selection','error type','missing price column')
m('Data.priceCols',D,'(cols.filter (fun c => c.2.1)).map (fun c => c.2))','cols.map (fun c => c.2))','non-numeric columns kept','numeric columns only')
m('Data.toReturns',D,'else .error .typeError','else .error .valueError','error type','non-numeric prices are a TypeError')
m('Data.weightsSeries',D,'if w.length = l.length then .ok (l.zip w) else .error .valueError','.ok (l.zip w)','length not tested','one name per weight')
G='Glasso'
m('Mom.admmTheta',G,'max (e.1 l ^ 2 + 4 * rho) 0','max (e.1 l ^ 2 - 4 * rho) 0','sign','precision eigenvalues positive')
m('Mom.admmTheta',G,'(1 / 2 : ℝ) • (Theta + Thetaᵀ)','(1 / 2 : ℝ) • Theta','halved','symmetric solution of the proximal step')
m('Mom.admmDone',G,'∧\n    frob (rho • (Z - Zprev)) ≤ tol * Real.sqrt N + tol * frob (rho • U)','','dual test dropped','both residuals small')
m('Mom.admmLoop',G,'| 0, _, _ => .error .runtimeError','| 0, Z, _ => .ok Z','last iterate returned','non-convergence raises')
m('Mom.admmLoop',G,'let U\' := U + Theta - Z\'','let U\' := U - Theta + Z\'','dual update sign','ADMM step')
m('Mom.admm',G,'ensurePsd (if precision.det = 0 then pinv precision else precision⁻¹) defaultJitter','(.ok (if precision.det = 0 then pinv precision else precision⁻¹) : Except PyErr _)','covariance not repaired','covariance PSD (equivalent: precision is PD)')
m('Mom.admm',G,'.ok (cov, precision)','.ok (precision, cov)','outputs swapped','covariance and precision')
m('Mom.partMoment',G,'/ ((Finset.univ.filter sel).card : ℝ)','/ (T : ℝ)','divided by all rows','fold second moment')
m('Mom.foldScore',G,'Real.log |cp.2.det| -','Real.log |cp.2.det| +','sign of the trace','Gaussian log-likelihood')
m('Mom.cvScore',G,'scores.sum / scores.length','scores.sum','sum','average score (same ranking)')
m('Mom.alphaMax',G,'(1 / 10 ^ 6)\n\n/-- `np.geomspace','0\n\n/-- `np.geomspace','floor dropped','penalty positive')
m('Mom.alphaGrid',G,'(1 / 100 : ℝ) ^ ((k : ℝ) / 4)','(1 / 100 : ℝ) ^ (k : ℝ)','too wide','grid spans two decades')
m('Mom.betterAlpha',G,'if score > b.2 + 1 / 10 ^ 8 then','if score < b.2 + 1 / 10 ^ 8 then','worst kept','best score kept')
m('Mom.chooseAlpha',G,'| .num a => if a ≤ 0 then','| .num a => if a < 0 then','zero accepted','alpha positive')
m('Mom.glassoData',G,'if assumeCentered then R else centred R','centred R','always centred','assume_centered')
m('Mom.glasso',G,'if T < 2 then .error .valueError','if T < 1 then .error .valueError','one row accepted','two rows required')
P='Poet'
m('Mom.descending',P,'(argsort (eigh A).1 (Fin.rev l)), Matrix.of','(argsort (eigh A).1 l), Matrix.of','ascending eigenvalues','descending order')
m('Mom.poetScaled',P,'centred R t i / poetScale','R t i / poetScale','not centred','scores of centred data')
m('Mom.poetLoadings',P,'scale i * (atCol','(atCol','not rescaled','loadings in original units')
m('Mom.poetScores',P,'X t i * atCol 0 (vecs i) l','X t i * atCol 0 (vecs i) (l + 1)','next eigenvector','scores')
m('Mom.poetDecomp',P,'poet (descending argsort eigh) R k thresh standardize','poet (descending argsort eigh) R k thresh true','flag ignored','same covariance as without decomposition')
I='Invariants'
m('Api.wrapLike',I,'(fun i => cols.get (i.cast h)))','(fun i => cols.get (Fin.rev (i.cast h))))','labels reversed','columns keep their names')
m('Api.wrapLike',I,'.ok (.array (simGrid x))\n  | .frame _ cols _ =>\n    if','.error .valueError\n  | .frame _ cols _ =>\n    if','arrays rejected','array invariants accepted')
m('Api.instrumentScenarios',I,'| .array _ _ _ => .error .typeError','| .array _ _ _ => .error .valueError','error type','array with a dict is a TypeError')
m('Api.instrumentScenarios',I,'(f s a).getD j 0','(f s a).getD (j + 1) 0','next instrument','one column per instrument')
m('Api.plainScenarios',I,'projectScenarios v.values horizon p n u','projectScenarios v.values horizon none n u','probabilities ignored','probabilities used')
m('Api.invariantScenarios',I,'(fun s a i => repriceExp (s a i))','(fun s a i => s a i)','log sums kept','default repricing is exponential')
m('Api.fromInvariants',I,'fromScenarios s none "simple"','fromScenarios s none "log"','converted twice','repriced scenarios are simple returns')
A='MomentsApi'
m('Mom.labelsLoop',A,'if c.length = f.length ∧ c ≠ f then .error .valueError else labelsLoop (some f) rest','labelsLoop (some f) rest','mismatch ignored','labels must agree')
m('Mom.labelsLoop',A,'| none, some c :: rest => labelsLoop (some c) rest','| none, some _ :: rest => labelsLoop none rest','labels dropped','labels kept')
m('Mom.npCov0',A,'if R.cols.isSome then .error .valueError\n','if False then .error .valueError\n','labelled single column accepted','(fixes the bug: counterexample must fail)')
m('Mom.sampleStage',A,'match wrapVec (colMean R.x) R.labels with','match wrapVec (colMean R.x) none with','labels dropped','labels kept')
m('Mom.meanKind',A,'["jorion", "bayes_stein"]','["bayes_stein"]','alias dropped','jorion accepted')
m('Mom.covKind',A,'else if key = "oas" then some .oas','else if key = "oas" then some .ledoitWolf','oas mapped elsewhere','oas means OAS')
m('Mom.covKind',A,'else if key = "ewma" then some .ewma\n  else none','else some .ewma','unknown accepted','unknown estimator raises')
m('Mom.shrinkNls',A,'if inputIsCov then .error .valueError\n  else','if False then .error .valueError\n  else','covariance input accepted','input_is_cov raises')
m('Mom.shrinkNls',A,'if dof = 0 then none else some dof','some dof','zero dof passed','dof 0 means default')
m('Mom.meanStage',A,'| .sample => .ok mu\n  | .jorion','| .sample => .ok { mu with labels := none }\n  | .jorion','labels dropped','labels kept')
m('Mom.covStage',A,'| .oas => wrapRes R (shrinkOas R.x kw.oasCentered)','| .oas => wrapRes R (shrinkOas R.x true)','option ignored','kwargs forwarded')
m('Mom.estimateMoments',A,'match meanStage ext R ms.1 ms.2 mkw mk with','match meanStage ext R ms.1 ms.2 mkw .sample with','mean estimator ignored','mean estimator used')
m('Mom.posteriorNiw',A,'match update factor o smu ssigma (pyInt nObs) with\n    | .error e => .error e\n    | .ok p =>\n      match getMuCe { o with post := some p }, getSigmaCe { o with post := some p } with','match update factor o smu ssigma (pyInt nObs + 1) with\n    | .error e => .error e\n    | .ok p =>\n      match getMuCe { o with post := some p }, getSigmaCe { o with post := some p } with','one observation more','same as NIWPosterior')
B='BlackLittermanApi'
m('BL.viewsDict',B,'if l.length = N then','if l.length ≤ N then','short vector accepted','one view per asset')
m('BL.Inputs.assets',B,'.int (i : ℕ)','.int ((i : ℕ) + 1)','numbering from one','labels 0, 1, ...')
m('BL.Inputs.sigma',B,'symmetrise (Matrix.of (fun i j => x.cov i (Fin.cast h j)))','Matrix.of (fun i j => x.cov i (Fin.cast h j))','not symmetrised','prior covariance symmetrised')
m('BL.priorVec',B,'w.getD i 0 / w.sum','w.getD i 0','weights not normalised','market weights are normalised')
m('BL.priorVec',B,'exact match pi with\n  | some p => .ok p\n  | none =>\n    match marketWeights','exact match (none : Option (List ℝ)) with\n  | some p => .ok p\n  | none =>\n    match marketWeights','pi ignored','explicit prior mean wins')
m('BL.packPrior',B,'if labels.isSome ∧ pi.length ≠ N then .error .valueError else','if False then .error .valueError else','length mismatch accepted','labelled prior of wrong length raises')
m('BL.packPosterior',B,'if pi.length ≠ N then .error .valueError\n','if pi.length < N then .error .valueError\n','longer prior accepted','prior length must match')
m('BL.finish',B,'if rows = [] then packPrior labels pi sigma','if rows = [] then .error .valueError','no views rejected','no views returns the prior')
m('BL.finish',B,'buildOmega x.omega conf','buildOmega x.omega none','confidences ignored','confidences used')
m('BL.processor',B,'if x.riskAversion ≤ 0 then','if x.riskAversion < 0 then','zero accepted','risk aversion positive')
m('BL.weightsAfter',B,'if x.r = x.c ∧ 0 < x.riskAversion ∧ x.pi = none ∧ w.length = x.r ∧ x.inPlace = true then some (w.map (fun v => v / w.sum))\n    else some w','some w','no aliasing','(fixes the bug: counterexample must fail)')
json.dump(M,open('/tmp/scratch/m7.json','w'))
for x in M:
    s=open('/verif/lean/'+x['file']).read()
    if s.count(x['old'])!=x['count']: print(x['id'],x['defn'],s.count(x['old']),x['old'][:60])
print(len(M))
