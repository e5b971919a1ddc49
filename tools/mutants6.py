import json
M=[]; N0=600
def m(defn, file, old, new, edit, claim, count=1):
    M.append(dict(id='M%03d'%(len(M)+1+N0), defn=defn, file='Verif/Model/%s.lean'%file, old=old, new=new, edit=edit, claim=claim, count=count))
V='Views'
m('FV.validateFinite',V,'if x.isFinite then .ok x else .error .valueError\n\n/-- `at_least`','.ok x\n\n/-- `at_least`','finiteness not tested','view builders reject non-finite numbers')
m('FV.atLeast',V,'.ok (.spec .ge v)','.ok (.spec .le v)','at_least builds an upper bound','at_least is a lower bound')
m('FV.atMost',V,'.ok (.spec .le v)','.ok (.spec .ge v)','at_most builds a lower bound','at_most is an upper bound')
m('FV.above',V,'.ok (.spec .gt v)','.ok (.spec .lt v)','above builds <','above is >')
m('FV.below',V,'.ok (.spec .lt v)','.ok (.spec .gt v)','below builds >','below is <')
m('FV.between',V,'if PyFloat.lt h l then .error .valueError else .ok (.between l h)','.ok (.between l h)','reversed interval accepted','between(lo, hi) with hi < lo raises')
m('FV.between',V,'.ok (.between l h)','.ok (.between h l)','ends swapped','between keeps its ends')
m('FV.parseView',V,'.ok (.eq, x)','.ok (.ge, x)','bare number read as >=','bare number is an equality')
m('FV.parseView',V,'| .spec op x => if x.isFinite then .ok (op, x) else .error .valueError','| .spec op x => .ok (op, x)','non-finite targets accepted','targets must be finite')
m('FV.parseViewSpecs',V,'[(.ge, lo), (.le, hi)]','[(.ge, lo)]','upper end dropped','between bounds both sides')
m('FV.parseViewSpecs',V,'[(.ge, lo), (.le, hi)]','[(.le, lo), (.ge, hi)]','ops swapped','between bounds both sides')
m('FV.digits?',V,'10 * a +','a +','sum of digits','string digits name the integer label')
m('FV.indexOf',V,'(List.finRange N).find?','(List.finRange N).reverse.find?','last match','first position (equivalent for unique labels)')
m('FV.assetIdx',V,'| .int _ => .error .valueError','| .int n => if h : n.toNat < N then .ok ⟨n.toNat, h⟩ else .error .valueError','integer fallback to position','unknown labels raise')
m('FV.Rows.append',V,'⟨a.eq ++ b.eq, a.ineq ++ b.ineq⟩','⟨a.eq ++ b.eq, b.ineq⟩','inequalities overwritten','all views are kept')
m('FV.addRow',V,'| .le => ⟨[], [(row, raw)]⟩','| .le => ⟨[], [(fun s => -row s, -raw)]⟩','<= becomes >=','direction of a view')
m('FV.addRow',V,'| .lt => ⟨[], [(row, raw)]⟩','| .lt => ⟨[], []⟩','strict upper view dropped','every view holds')
m('FV.addRow',V,'| _ => ⟨[], [(fun s => -row s, -raw)]⟩','| _ => ⟨[], [(fun s => -row s, raw)]⟩','right-hand side not negated','>= view bound')
m('FV.viewRows',V,'.ok (addRow p.1 row raw)','.ok (addRow .eq row raw)','operator ignored','inequality views')
m('FV.meanRow',V,'R s i - R s j)','R s j - R s i)','pair reversed','pair view is first minus second')
m('FV.buildVol',V,'if t ≤ 0 then .error .valueError else .ok (t ^ 2 + mu i ^ 2)','if t < 0 then .error .valueError else .ok (t ^ 2 + mu i ^ 2)','zero volatility accepted','volatility must be positive')
m('FV.buildVol',V,'.ok (t ^ 2 + mu i ^ 2)','.ok (t + mu i ^ 2)','volatility not squared','posterior volatility matches')
m('FV.buildVol',V,'.ok (t ^ 2 + mu i ^ 2)','.ok (t ^ 2)','mean correction dropped','posterior volatility matches')
m('FV.buildVar',V,'.ok (t + mu i ^ 2)','.ok (t - mu i ^ 2)','sign of the mean correction','posterior variance matches')
m('FV.buildVar',V,'if t < 0 then .error .valueError else .ok (t + mu i ^ 2)','.ok (t + mu i ^ 2)','negative variance accepted','variance must be nonnegative')
m('FV.buildSkew',V,'if var i < 1 / 10 ^ 12 then','if var i < 0 then','zero variance accepted','skewness of a constant raises')
m('FV.buildSkew',V,'3 * mu i * var i + mu i ^ 3','3 * mu i * var i','cube of the mean dropped','posterior skewness matches')
m('FV.buildCorr',V,'* Real.sqrt (var j) + mu i * mu j','+ mu i * mu j','one scale dropped','posterior correlation matches')
m('FV.buildCorr',V,'if ¬ (-1 ≤ t ∧ t ≤ 1) then','if ¬ (t ≤ 1) then','below -1 accepted','correlation in [-1, 1]')
m('FV.buildQuantile',V,'if R s i ≤ kv.2.1 then 1 else 0','if R s i < kv.2.1 then 1 else 0','strict','probability of at most the value')
m('FV.buildQuantile',V,'if ¬ (0 < t ∧ t < 1) then','if ¬ (0 ≤ t ∧ t < 1) then','zero probability accepted','probability strictly inside (0,1)')
m('FV.doEp',V,'⟨r.eq ++ [(fun _ => 1, 1)], r.ineq⟩','⟨r.eq, r.ineq⟩','sum-to-one row dropped','posterior sums to one')
m('FV.epOf',V,'if r.ineq.isEmpty then','if true then','inequalities never passed','inequality views hold')
m('FV.meanOf',V,'∑ s, R s i * q s','∑ s, R s i','weights ignored','posterior mean')
m('FV.varOf',V,'(R s i - mu i) ^ 2 * q s','R s i ^ 2 * q s','not centred','posterior variance')
m('FV.sequentialPass',V,'sequentialPass ep q R rest mu\' (varOf R mu\' q)','sequentialPass ep p0 R rest mu\' (varOf R mu\' q)','previous posterior discarded','blocks are chained')
m('FV.sequentialPass',V,'sequentialPass ep q R rest mu\' (varOf R mu\' q)','sequentialPass ep q R rest mu var','moments not refreshed','linearisation at the current mean')
m('FV.blocksOf',V,'(!v.skew.isEmpty, fun mu var => buildSkew assets R mu var v.skew),','','skew block dropped','every block is applied')
m('FV.linPoint',V,'v.skew.isEmpty && v.corr.isEmpty) then do','v.skew.isEmpty) then do','correlation views ignored in the test','linearisation at the viewed mean')
m('FV.simultaneousPass',V,'[r1, r2, r3, r4, r5]','[r1, r2, r3, r4]','correlation rows dropped','all views hold')
m('FV.simultaneousPass',V,'buildVar assets R mu\' v.var','buildVar assets R mu v.var','prior mean used','variance views about the viewed mean')
m('FV.cvarRows',V,'then x i else 0, gamma * target)','then x i else 0, target)','not scaled by gamma','CVaR row')
m('FV.cvarRows',V,'(fun i => if ((σ.symm i : ℕ) : ℤ) < s + 1 then 1 else 0, gamma)','(fun i => if ((σ.symm i : ℕ) : ℤ) < s then 1 else 0, gamma)','one tail scenario fewer','tail probability row')
m('FV.klMasked',V,'Real.log (q s / p s)','Real.log (p s / q s)','ratio inverted','relative entropy')
m('FV.solveForS',V,'| .error _ => none','| .error _ => some (p, 0)','failure treated as a solution','failed solves are discarded')
m('FV.newtonLoop',V,'if c.2 < b.2 then some c else some b','if b.2 < c.2 then some c else some b','worst candidate kept','smallest entropy kept')
m('FV.newtonStep',V,'max 1 (min (round','max 0 (min (round','lower clip 0','cut index stays inside')
m('FV.initialCut',V,'gamma ≤ ∑ j, if j ≤ k','gamma ≤ ∑ j, if j < k','exclusive cumulative sum','first position reaching gamma')
m('FV.solveCvarView',V,'| none => .error .runtimeError','| none => .ok p','prior returned on failure','unsolvable CVaR view raises')
m('FV.cvarPass',V,'kv.2.2 kv.2.1 q\n','kv.2.1 kv.2.2 q\n','target and gamma swapped','CVaR view meaning')
m('FV.cvarPass',V,'cvarPass ep argsort round assets R rest q\'','cvarPass ep argsort round assets R rest q','result discarded','CVaR views are chained')
m('FV.quantilePass',V,'doEp ep q1 r','(.ok q1)','quantile views ignored','quantile views hold')
m('FV.computePosterior',V,'&& v.cvar.isEmpty\n      && v.quantile.isEmpty then','then','CVaR and quantile views not tested','early exit only without views')
m('FV.computePosterior',V,'cvarPass ep argsort round assets R v.cvar q2','cvarPass ep argsort round assets R v.cvar q1','quantile posterior discarded','quantile views precede CVaR views')
m('FV.expandRank',V,'(.pair a b, .spec .ge (.fin 0))','(.pair b a, .spec .ge (.fin 0))','order reversed','rank_mean is descending')
m('FV.expandRank',V,'expandRank (if views.any','expandRank (if false && views.any','existing pair duplicated','existing pair view wins')
m('FV.meanArgToDict',V,'(.single (assets i), .scalar (x i))','(.single (assets i), .spec .ge (x i))','vector read as lower bounds','vector entries are equalities')
m('FV.priorOf',V,'1 / (S : ℝ)','1','not normalised','uniform prior')
m('FV.rankedDict',V,'if l.length < 2 then','if l.length < 1 then','one label accepted','rank_mean needs two labels')
m('FV.callerView',V,'| .dict _ => some d\'','| .dict d => some d','caller dictionary copied','(fixes the bug: the counterexample must fail)')
m('FV.construct',V,'if N = 1 then\n    .error .valueError','if N = 0 then\n    .error .valueError','single asset accepted','single column raises')
m('FV.construct',V,'.ok ⟨q, meanOf R q, callerView','.ok ⟨q, meanOf R p0, callerView','prior mean reported','posterior mean matches posterior')
A='ViewsApi'
m('FV.DistFn.call',A,'| .error .typeError => f.without n mu cov count','| .error _ => f.without n mu cov count','all errors retried','only TypeError retries')
m('FV.momentLabels',A,'| some l, _ => l\n  | none, some l => fun i => l (i.cast h.symm)','| _, some l => fun i => l (i.cast h.symm)\n  | some l, none => l','covariance labels first','labels of the mean win')
m('FV.regularised',A,'(1 / 10 ^ 6 : ℝ) •','(0 : ℝ) •','jitter dropped','regularised covariance')
m('FV.affine',A,'Z s k * L i k + mu i','Z s k * L k i + mu i','factor transposed','simulated covariance is L Lᵀ')
m('FV.affine',A,'Z s k * L i k + mu i','Z s k * L i k','mean dropped','simulated mean')
m('FV.simulated',A,'| some f => f.call mu (regularised C) count','| some f => f.call mu C count','unregularised covariance passed','distribution_fn receives the regularised covariance')
m('FV.sized',A,'if h : a.rows = S ∧ a.cols = N then .ok (fun s i => a.val (s.cast h.1.symm) (i.cast h.2.symm)) else .error .valueError','if h : a.rows = S ∧ a.cols = N then .ok (fun s i => a.val (s.cast h.1.symm) (i.cast h.2.symm)) else .error .typeError','error type','shape mismatch is a ValueError')
m('FV.countOf',A,'if k ≤ 0 then','if k < 0 then','zero scenarios accepted','num_scenarios positive')
m('FV.fromMoments',A,'m.index.isSome || c.index.isSome, none⟩','m.index.isSome, none⟩','frame covariance alone gives arrays','pandas in, pandas out')
m('FV.priorFor',A,'if l.length = S then','if True then','length not tested','probabilities have one entry per scenario')
m('FV.fromDrivers',A,'⟨d.S, d.N, d.R, l, true, q⟩','⟨d.S, d.N, d.R, l, true, none⟩','probabilities dropped','prior probabilities are honoured')
m('FV.vecToDict',A,'if x.length = N then .ok ((List.finRange N).map (fun i : Fin N => (key','if x.length ≤ N then .ok ((List.finRange N).map (fun i : Fin N => (key','short vector accepted','vector views need one entry per asset')
m('FV.cvarToDict',A,'1 / 20','1 / 10','default gamma 10%','vector CVaR views are at 5%')
m('FV.viewsOf',A,'let va ← vecToDict assets id a.var','let va ← vecToDict assets id a.vol','volatility views used twice','variance views are honoured')
m('FV.viewsOf',A,'.ok ⟨m\', vo, va, sk, a.corr','.ok ⟨m, vo, va, sk, a.corr','ranking ignored','rank_mean is honoured')
m('FV.npCovW',A,'Matrix.of (fun i j => (∑ s, (R s i - avg i) * (R s j - avg j) * q s) / ∑ s, q s)','Matrix.of (fun i j => (∑ s, (R s i - avg i) * (R s j - avg j) * q s) / (∑ s, q s - 1 / 2))','biased divisor changed','posterior covariance is the weighted covariance')
m('FV.process',A,'meanOf src.R q, npCovW src.R q⟩','meanOf src.R q, npCovW src.R p0⟩','prior covariance reported','posterior covariance under posterior')
m('FV.Processor.scenarios',A,'.fin (p.R s i)⟩\n  if p.pandas','.fin (p.R s i)⟩\n  if !p.pandas','format swapped','pandas in, pandas out')
m('FV.Processor.posteriorMean',A,'PyFloat.fin (p.mean i))))\n  else','PyFloat.fin (p.mean i + 1))))\n  else','shifted mean','accessor returns the posterior mean')
W='Wrapper'
m('Api.squareGrid',W,'if h : g.cols = g.rows then\n      if ∀ i j, (g.e i j).isFinite = true then','if h : g.cols = g.rows then\n      if True then','finiteness not tested','non-finite covariance rejected')
m('Api.squareGrid',W,'.ok ⟨g.rows, Matrix.of (fun i j => (g.e i (j.cast h.symm)).val),','.ok ⟨g.rows, Matrix.of (fun i _ => (g.e i (i.cast h.symm)).val),','diagonal repeated','covariance read entrywise')
m('Api.asGrid',W,'| some l => .frame ⟨n, n, e⟩ l.1 l.2','| some _ => .array ⟨n, n, e⟩','labels dropped','labels kept')
m('Api.broadcast',W,'if m = n then some n else','if m ≤ n then some n else','shorter mean accepted','lengths must agree')
m('Api.logMean',W,'Real.exp (x + 1 / 2 * d) - 1','Real.exp (x + d) - 1','half dropped','log-normal mean')
m('Api.logCov',W,'- Real.exp (x + 1 / 2 * di) * Real.exp (y + 1 / 2 * dj)','- Real.exp x * Real.exp y','half variances dropped','log-normal covariance')
m('Api.logArgs',W,'logCov (v.getD (bidx m i) .nan) (v.getD (bidx m j) .nan)','logCov (v.getD (bidx m i) .nan) (v.getD (bidx m i) .nan)','row mean used twice','log-normal covariance')
m('Api.fromMoments',W,'if returnType = "log" then','if returnType = "simple" then','types swapped','log moments are converted')
m('Api.fromMoments',W,'match Valid.ensurePsd s.A Valid.defaultJitter with','match (.ok s.A : Except PyErr _) with','covariance not repaired','covariance is PSD')
m('Api.applyCosts',W,'if c.w0.length ≠ N then','if c.w0.length < N then','longer vector accepted','initial weights have one entry per asset')
m('Api.applyCosts',W,'.ok ⟨some c.w0, c.impact, c.prop⟩\n    else','.ok ⟨some c.w0, c.prop, c.impact⟩\n    else','impact and proportional swapped','costs are stored as given')
m('Api.mkWrapper',W,'.ok ⟨d.mu, d.cov, d.scen, m, c, false, none⟩','.ok ⟨d.mu, d.cov, d.scen, m, ⟨none, none, none⟩, false, none⟩','costs dropped','wrapper costs are used')
m('Api.fromRobustPosterior',W,'sMu ⟨i, h\'.1⟩ ⟨j, h\'.2⟩ * h ^ 2','sMu ⟨i, h\'.1⟩ ⟨j, h\'.2⟩ * h','uncertainty scaled by h','uncertainty scales with h squared')
m('Api.fromRobustPosterior',W,'isLog := true','isLog := false','log flag dropped','reported moments are simple')
m('Api.toUser',W,'some g, some h => some (g.zip h)','some g, some _ => some (g.map (fun r => (r, 0)))','bounds zeroed','right-hand sides kept')
m('Api.Wrapper.resolveCosts',W,'| some c => ⟨some c.w0, c.impact, c.prop⟩\n  | none => w.costs','| some c => ⟨some c.w0, c.impact, c.prop⟩\n  | none => ⟨none, none, none⟩','stored costs ignored','stored costs used by default')
m('Api.Wrapper.report',W,'if w.isLog then Proj','if !w.isLog then Proj','flag inverted','log moments are converted for reporting')
m('Api.mvOf',W,'if w0.length ≠ l.length then .error .valueError\n    else if l.length = N then .ok (Opt.mvInit','if False then .error .valueError\n    else if l.length = N then .ok (Opt.mvInit','length mismatch accepted','mismatched costs raise')
m('Api.mvOf',W,'(some (vecOf N w0)) (some (vecOf N l))','(some (vecOf N l)) (some (vecOf N w0))','arguments swapped','impact cost about the initial weights')
m('Api.Wrapper.moments',W,'| some m, some c => .ok (m, c)\n  | _, _ => .error .valueError','| some m, some c => .ok (m, c)\n  | some m, none => .ok (m, 0)\n  | _, _ => .error .valueError','missing covariance read as zero','moments required')
m('Api.overlay',W,'(some (95 / 100)) false','(some (5 / 100)) false','wrong level','overlay is CVaR 95%')
m('Api.overlay',W,'fun j => |l.getD j 0|','fun j => l.getD j 0','sign kept','overlay is a positive loss')
m('Api.Wrapper.varianceFrontier',W,'match Opt.mvFrontier solver m num with','match Opt.mvFrontier solver m (num - 1) with','one portfolio fewer','num_portfolios columns')
m('Api.Wrapper.varianceFrontier',W,'returns := fun j => retOf r.1 (cols.get j)','returns := fun j => retOf mu (cols.get j)','log means reported','returns of reported moments')
m('Api.asInfeasible',W,'| .error .runtimeError => .error .infeasible','| .error _ => .error .infeasible','all errors translated','only solver failures are infeasible')
m('Api.Wrapper.minVarianceAtReturn',W,'(Opt.mvSolve solver m (some target))','(Opt.mvSolve solver m none)','target dropped','target return is reached')
m('Api.Wrapper.minVarianceAtReturn',W,'.ok ⟨x, retOf r.1 x, vol r.2 x⟩\n\n/-! ## CVaR','.ok ⟨x, retOf mu x, vol r.2 x⟩\n\n/-! ## CVaR','log mean reported','return of reported moments')
m('Api.Wrapper.scenarioInputs',W,'Real.exp (x t i) - 1 else x t i','Real.exp (x t i) else x t i','gross returns','simulated log returns become simple')
m('Api.Wrapper.scenarioInputs',W,'if Opt.isclose tot 1 then s.p else fun t => s.p t / tot','s.p','not renormalised','probabilities sum to one')
m('Api.Wrapper.scenarioInputs',W,'| none => fun i => ∑ t, s.R t i * p t','| none => fun i => ∑ t, s.R t i / s.T','equal weights','mean under probabilities')
m('Api.scenCov',W,'p t * ((R t i - m i) * (R t j - m j))','p t * (R t i * R t j)','not centred','scenario covariance')
m('Api.Wrapper.cvarFrontier',W,'(some (1 - alpha)) false) cols with\n          | .error e => .error e','(some alpha) false) cols with\n          | .error e => .error e','confidence and tail swapped','reported risk is CVaR at alpha')
m('Api.Wrapper.minCvarAtReturn',W,'.ok ⟨x, retOf mu x, |c|⟩','.ok ⟨x, retOf mu x, c⟩','sign kept','reported CVaR is positive')
m('Api.lambdaGrid',W,'if l = [] then .error .valueError else if ∃ x ∈ l, x < 0 then .error .valueError else .ok l\n    | none =>\n      if num ≤ 0 then .error .valueError\n      else if maxLam < 0','if ∃ x ∈ l, x < 0 then .error .valueError else .ok l\n    | none =>\n      if num ≤ 0 then .error .valueError\n      else if maxLam < 0','empty list accepted','empty penalties raise')
m('Api.lambdaGrid',W,'else if num = 1 then .ok [maxLam]','else if num = 1 then .ok [0]','single penalty 0','single penalty is the maximum')
m('Api.lambdaGrid',W,'else if maxLam = 0 then .ok [0]','else if maxLam = 0 then .ok [0, 0]','two copies','one column for max 0')
m('Api.Wrapper.robustFrontier',W,'decide (a.risk ≤ b.risk)','decide (b.risk ≤ a.risk)','sorted downwards','risk ascending')
m('Api.Wrapper.robustFrontier',W,'(robOf mu (w.unc.getD cov) u (w.resolveCosts costs))) grid','(robOf mu cov u (w.resolveCosts costs))) grid','uncertainty ignored','uncertainty set used')
m('Api.Wrapper.robustGamma',W,'min (r.risk ^ 2) gs','r.risk ^ 2','cap dropped','reported squared radius at most gamma_sigma')
m('Api.isRuntime',W,'| .infeasible => true','| .infeasible => false','subclass not caught','infeasible solves are retried')
m('Api.shrink',W,'if u ≤ lower + 1 / 10 ^ 6 then lower else u','u','no snapping','targets end at the risk parity return')
m('Api.relaxedLoop',W,'.ok (r, true)','.ok (r, false)','warning dropped','fallback is flagged')
m('Api.relaxedLoop',W,'relaxedLoop solver a lam lower k (shrink lower t)','relaxedLoop solver a lam lower k t','target not reduced','target is halved toward the risk parity return')
m('Api.requestedTarget',W,'| some t => .ok t\n    | none =>\n      match mult','| some t => .ok (max t lower)\n    | none =>\n      match mult','target raised','explicit target used as given')
m('Api.requestedTarget',W,'if m < 0 then .error .valueError else .ok (m * lower)','.ok (m * lower)','negative multiplier accepted','multiplier nonnegative')
m('Api.relaxedPack',W,'retOf r.1 rp, requested','retOf r.1 sol.w, requested','wrong portfolio','risk parity return of the risk parity portfolio')
m('Api.relaxedPack',W,'fun i => sol.w i * sol.marginal i','fun i => sol.marginal i','weights dropped','contribution = weight times marginal')
m('Api.Wrapper.relaxed',W,'if lam = 0 ∧ target = none ∧ mult = none then','if lam = 0 ∧ target = none then','multiplier ignored at lambda 0','multiplier honoured')
m('Api.Wrapper.relaxed',W,'relaxedLoop solver a lam lower 8 t','relaxedLoop solver a lam lower 1 t','one attempt','eight attempts')
m('Api.multiplierGrid',W,'else if num = 1 then .ok [max 1 maxMult]','else if num = 1 then .ok [1]','single multiplier 1','single multiplier is the maximum')
m('Api.multiplierGrid',W,'Opt.linspace 1 maxMult','Opt.linspace 0 maxMult','starts at 0','grid from 1')
m('Api.Wrapper.relaxedFrontier',W,'if lam < 0 then .error .valueError\n      else','if False then .error .valueError\n      else','negative lambda accepted here','negative lambda raises')
m('Api.Wrapper.relaxedFrontier',W,'if includeRp then [⟨none','if !includeRp then [⟨none','flag inverted','anchor column')
m('Api.Wrapper.relaxedFrontier',W,'relaxedLoop solver a lam lower 8 (m * lower)','relaxedLoop solver a lam lower 8 m','multiplier used as the target','target = multiplier x risk parity return')
json.dump(M,open('/tmp/scratch/m6.json','w'))
for x in M:
    s=open('/verif/lean/'+x['file']).read()
    if s.count(x['old'])!=x['count']: print(x['id'],x['defn'],s.count(x['old']),x['old'][:60])
print(len(M))
