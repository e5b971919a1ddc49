import json
M=[]; N0=900
def m(defn, file, old, new, edit, claim, count=1):
    M.append(dict(id='M%03d'%(len(M)+1+N0), defn=defn, file='Verif/Model/%s.lean'%file, old=old, new=new, edit=edit, claim=claim, count=count))
D='Discrete'
m('Discrete.floorPass',D,'(fun _ => 0, s.total)','(fun _ => 1, s.total)','one free share','shares are paid for')
m('Discrete.minCost',D,'match firstArgmin s.cost with','match firstArgmax s.cost with','largest cost','loop runs while the cheapest lot is affordable')
m('Discrete.deficits',D,'if d < 0 then 0 else d','|d|','absolute deviation','only underweight assets are bought')
m('Discrete.loop',D,'| .stop st\' => some st\'','| .stop _ => some st','last step dropped','state after the loop')
m('Discrete.initState',D,'cash := (floorPass s).2','cash := s.total','floor pass not paid','cash after the floor pass')
m('Discrete.resolveMaxIter',D,'max ((n : ℤ) * 100) 1','max ((n : ℤ) * 10) 1','tenfold fewer iterations','default iteration limit')
m('Discrete.shouldFallback',D,'exhausted || (stillCash && largeDeficit) || nothing','exhausted || nothing','deficit test dropped','fallback rule')
m('Discrete.Input.ppl',D,'inp.price i * inp.lot i\n\n/-- `target_values`','inp.price i\n\n/-- `target_values`','lot size dropped','cost of one lot')
m('Discrete.Input.target',D,'inp.w i * inp.total\n\n/-- `max_shares','inp.w i\n\n/-- `max_shares','value dropped','target value')
m('Discrete.Input.maxLots',D,'else 0) + 1) 0','else 0)) 0','one lot fewer','lot bounds admit the target')
m('Discrete.Input.lotLb',D,'if inp.w i ≥ 0 then 0 else - inp.maxLots i','0','no short lots','short targets can be held short')
m('Discrete.mipObj',D,'∑ i, p.u i + cashPenalty * p.r','∑ i, p.u i','cash penalty dropped','objective')
m('Discrete.discretize',D,'| .ok .milp => allocateMip inp (solve inp)','| .ok .milp => allocateGreedy inp (sortBy inp) maxIter mode (allocateMip inp (solve inp))','milp routed to greedy','method routing')
m('Discrete.allocateGreedy',D,'if inp.hasShorts then mip','if false then mip','shorts handled greedily','short targets go to the MILP')
T='Distribution'
m('Api.namesMu',T,'mergeNames names (l.map Prod.fst)','.ok names','labels of mu ignored','labels must agree')
m('Api.namesCov',T,'checkColumns ((List.finRange g.cols).map columns) n','.ok n','column labels not tested','labels must agree')
m('Api.scenPart',T,'match scenProbs g.rows p with','match scenProbs g.rows none with','probabilities ignored','probabilities used')
m('Api.muPart',T,'| .ok (some m) => .ok (some m.1)','| .ok (some _) => .ok none','mean not estimated','missing mean is estimated')
m('Api.covPart',T,'| .ok (some m) => .ok (some m.2)','| .ok (some _) => .ok none','covariance not estimated','missing covariance is estimated')
m('Api.inferN',T,'| some s, _, _ => some s.cols','| some s, _, _ => some s.rows','rows counted','number of assets')
m('Api.ratioM1',T,'| .fin x, .fin y => .fin (x / y - 1)','| .fin x, .fin y => .fin (x / y)','gross return','price returns')
m('Api.ratioM1',T,'| .fin x, .fin y => .fin (x / y - 1)','| .fin x, .fin y => .fin (y / x - 1)','inverted','price returns')
m('Api.toSimple',T,'| .frame g i c => .frame ⟨g.rows, g.cols, fun t k => expM1 (g.e t k)⟩ i c','| .frame g i c => .frame g i c','frames not converted','log scenarios are converted')
m('Api.namesBad',T,'decide (l.length ≠ N)','decide (l.length < N)','too many names accepted','one name per asset')
E='EnsembleSpec'
m('Api.Wrapper.dist',E,'⟨N, w.mu, w.cov, w.scen, none⟩','⟨N, w.mu, w.cov, none, none⟩','scenarios dropped','same distribution')
m('Api.Wrapper.specFrontier',E,'specFactory call w.dist key constraints','specFactory call w.dist key none','constraints dropped','constraints honoured')
N='Ensembles'
m('Ens.averageExposures',N,'if S = 0 then .error .valueError\n  else\n    match normalizeWeights w S sampleNames','if False then .error .valueError\n  else\n    match normalizeWeights w S sampleNames','no samples accepted','empty samples raise (also by normalize: equivalent)')
m('Ens.gramPart',N,'if F.card = 0 then 0 else ∑ i, masked E F a i * masked E F b i','∑ i, masked E F a i * masked E F b i','empty folds counted','(folds are non-empty: equivalent)')
m('Ens.gramPart',N,'∑ i, masked E F a i * masked E F b i','∑ i, masked E F a i * E i b','one side unmasked','stacking objective')
m('Ens.isEstimation',N,'"Estimation Risk".toList <:+: s.toList','"Estimation Risk".toList = s.toList','equality instead of substring','risk label resolution')
m('Ens.weightsOf',N,'| .ok p => .ok p.w','| .ok p => .ok (fun _ => p.ret)','returns instead of weights','selector returns weights')
m('Ens.runSpec',N,'| .ok w => .ok (s.name, f, w)','| .ok w => .ok ("", f, w)','name dropped','results keyed by name')
m('Ens.sampleColumn',N,'match pyIndex p.1.M p.2 with\n  | .error e => .error e\n  | .ok k => .ok (fun a => p.1.f.weights a k)','match pyIndex p.1.M p.2 with\n  | .error e => .error e\n  | .ok k => .ok (fun a => p.1.f.weights a (Fin.rev k))','reversed column','selected column')
m('Ens.callSelector',N,'| .column i =>\n    (match pyIndex M i with','| .column i =>\n    (match pyIndex M (i + 1) with','off by one','column selector')
m('Ens.cleanSelection',N,'match firstArgmin f.f.risks with','match firstArgmax f.f.risks with','highest risk','default column is the lowest risk')
m('Ens.determineFolds',N,'max 1 (min sf total)','sf','not clipped','folds at most the number of specs')
m('Ens.frontierOf',N,'rs.reverse.lookup name','rs.lookup name','first wins','later specification of the same name replaces the entry')
X='EntropyPooling'
m('EP.clip',X,'min (max x lo) hi','x','no clipping','(changes nothing for moderate exponents)')
m('EP.exponent',X,'logp s - 1 - ∑','logp s + 1 - ∑','sign','dual exponent (normalised away in the posterior)')
m('EP.primal',X,'Real.exp (clip (-700) 700 (exponent logp lhs l s))','clip (-700) 700 (exponent logp lhs l s)','exp dropped','posterior positive')
m('EP.methodOk',X,'m == "TNC" || m == "L-BFGS-B"','true','any method','unknown methods raise')
m('EP.entropyPooling',X,'(Sum.elim (fun _ => false) (fun _ => true))','(Sum.elim (fun _ => false) (fun _ => false))','multipliers of inequalities unbounded','inequality multipliers nonnegative')
F='Frontier'
m('Fr.Frontier.pick',F,'⟨fun a => f.weights a i, f.returns i, r i⟩','⟨fun a => f.weights a i, f.returns i, f.risks i⟩','primary risk reported','risk reported in the requested measure')
m('Fr.nearestIndex',F,'firstArgmin (fun i => |q i - x|)','firstArgmin (fun i => q i - x)','absolute value dropped','nearest percentile')
m('Fr.Frontier.indexAtPercentile',F,'match f.riskVector label with\n    | .error e => .error e\n    | .ok r =>\n      match nearestIndex','match f.riskVector none with\n    | .error e => .error e\n    | .ok r =>\n      match nearestIndex','label ignored','requested risk measure')
m('Fr.envelopeStack',F,'i :: popWhile x y eps i st','popWhile x y eps i (i :: st)','last point may be popped','envelope')
m('Fr.resolveConstraints',F,'| none, none => Con.build (N : ℤ) Con.defaultSpec\n    | _, _ => .ok stored','| _, none => Con.build (N : ℤ) Con.defaultSpec\n    | _, _ => .ok stored','stored inequalities replaced','stored constraints are used')
P='Optimization'
m('Opt.assertOptimal',P,'| none => .error .runtimeError\n\n/-- User','| none => .error .valueError\n\n/-- User','error type','solver failure is a RuntimeError')
m('Opt.isclose',P,'1 / 10 ^ 8 + 1 / 10 ^ 5 * |b|','1 / 10 ^ 8','relative part dropped','degenerate range test')
m('Opt.mapTargets',P,'| .ok l => .ok (a :: l)','| .ok l => .ok (l ++ [a])','reversed order','targets in order')
m('Opt.mvProg',P,'⟨m.P, m.q, withTarget m.user m.mean target, [], m.user.A.getD []⟩','⟨m.P, m.q, withTarget m.user m.mean target, [], []⟩','equalities dropped','user constraints hold')
m('Opt.mvRidge',P,'m.P i j + (if i = j then','m.P i j - (if i = j then','ridge subtracted','retry is still convex')
m('Opt.mvSolve',P,'assertOptimal (solver _ inferInstance { mvProg m target with P := mvRidge m })','assertOptimal (solver _ inferInstance { mvProg m none with P := mvRidge m })','retry without the target','target reached')
m('Opt.mvFrontier',P,'frontier first (fun t => mvSolve solver m (some t)) num m.mean r','frontier first (fun _ => mvSolve solver m none) num m.mean r','targets ignored','frontier targets')
m('Opt.cvMean',P,'∑ t, a.p t * a.R t i','∑ t, a.R t i','unweighted','mean under probabilities')
m('Opt.addTarget',P,'(blocks (fun i => -(mean i)) 0 (fun _ => 0) (fun _ => 0), -t)','(blocks (fun i => mean i) 0 (fun _ => 0) (fun _ => 0), t)','direction','target reached')
m('Opt.cvSolve',P,'| some x => .ok (fun i => x (Sum.inl i))\n    | none => .error .runtimeError\n  | _, _','| some x => .ok (fun i => x (Sum.inl i) - w0 i)\n    | none => .error .runtimeError\n  | _, _','trades returned','weights returned')
m('Opt.cvMaxReturn',P,'maxReturn solver (blocks (cvMean a) 0 (fun _ => 0) (fun _ => 0)) (cvPlain a).lin (cvPlain a).eq','maxReturn solver (blocks (cvMean a) 0 (fun _ => 0) (fun _ => 0)) (cvPlain a).lin []','equalities dropped','maximum attainable return')
m('Opt.cvFrontier',P,'frontier first (fun t => cvSolve solver a (some t)) num (cvMean a) r','frontier first (fun t => cvSolve solver a (some t)) (num + 1) (cvMean a) r','one more','num_portfolios columns')
m('Opt.robSolve',P,'x (Sum.inr ())⟩','x (Sum.inr ()) ^ 2⟩','squared radius','risk is the radius')
m('Opt.robFrontier',P,'if res.isEmpty then .error .valueError else .ok res','.ok res','empty sweep accepted','no penalties raises')
m('Opt.withTarget',P,'[(fun i => -(mean i), -t)]','[(fun i => mean i, t)]','direction','target reached')
R='Projection'
m('Proj.compoundToSimple',R,'Real.exp (x t) - 1\n','Real.exp (x t)\n','gross','simple returns')
m('Proj.pathWeights',R,'if x.sum = 0 then .error .valueError else .ok (x.map (· / x.sum))','.ok x','not normalised','path weights sum to one')
m('Proj.cdf',R,'(w.take (t + 1)).sum / w.sum','(w.take t).sum / w.sum','shifted','inverse cdf sampling')
m('Proj.gather',R,'.ok (fun a b i => row R (idx a b) i)','.ok (fun a b i => row R (idx a b - 1) i)','previous row','drawn rows')
m('Proj.repriceExp',R,'Real.exp dy - 1','dy','identity','exponential repricing')
m('Proj.moveCol',R,'if h : c < k then dy a ⟨c, h⟩ else 0','0','zero moves','driver columns')
m('Proj.composeRepricers',R,'instruments.map Prod.fst)','(instruments.map Prod.fst).reverse)','names reversed','columns match instruments')
K='Risk'
m('Risk.pnl',K,'∑ i, R t i * w i','∑ i, R t i','weights dropped','portfolio P&L')
m('Risk.cumProb',K,'if j ≤ k then p (σ j) else 0','if j ≤ k then p j else 0','unsorted probabilities','cumulative probability of sorted scenarios')
m('Risk.portfolioVariance',K,'∑ i, ∑ j, w i * C i j * w j','∑ i, w i * C i i * w i','diagonal only','variance is the quadratic form')
V='Validation'
m('Valid.isPsd',V,'∧ ∀ i, -tol ≤ eigvalsh A i','','eigenvalue test dropped','PSD test')
m('Valid.minEig',V,'⨅ i, eigvalsh A i','⨆ i, eigvalsh A i','largest eigenvalue','repair shifts by the smallest')
m('Valid.ensurePsd',V,'let k := max 0 (-(minEig M)) + jitter','let k := max 0 (minEig M) + jitter','sign','repair')
B='Bayesian'
m('Bayes.choleskyPd',B,'  else .error .valueError\n\n/-- `chi2_quantile','  else .error .typeError\n\n/-- `chi2_quantile','error type','non-square raises ValueError')
m('Bayes.pyInt',B,'if 0 ≤ x then ⌊x⌋ else ⌈x⌉','⌈x⌉','rounded up','int() truncates')
m('Bayes.step',B,'| .ok p => { o with post := some p }\n    | .error _ => o','| .ok p => { o with post := some p }\n    | .error _ => { o with post := none }','failed update clears the posterior','failed update changes nothing')
m('Bayes.fromNiw',B,'match update factor o smu ssigma (pyInt nObs) with\n    | .error e => .error e\n    | .ok p => bundle o p','match update factor o smu ssigma nObs with\n    | .error e => .error e\n    | .ok p => bundle o p','n_obs not truncated','same as NIWPosterior with integer arguments')
m('Bayes.rCredRadiusSigma',B,'chi2Quantile ppf p (k * (k + 1) / 2) with\n    | .error e => .error e\n    | .ok q => .ok (cSigma q v k)\n  | _, _','chi2Quantile ppf p k with\n    | .error e => .error e\n    | .ok q => .ok (cSigma q v k)\n  | _, _','degrees of freedom','n(n+1)/2 degrees of freedom')
json.dump(M,open('/tmp/scratch/m8.json','w'))
for x in M:
    s=open('/verif/lean/'+x['file']).read()
    if s.count(x['old'])!=x['count']: print(x['id'],x['defn'],s.count(x['old']),x['old'][:60])
print(len(M))
