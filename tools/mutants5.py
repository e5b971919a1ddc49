import json
M=[]; N0=400
def m(defn, file, old, new, edit, claim, count=1):
    M.append(dict(id='M%03d'%(len(M)+1+N0), defn=defn, file='Verif/Model/%s.lean'%file, old=old, new=new, edit=edit, claim=claim, count=count))
O='Moments'
m('Mom.wCov',O,'X t i * X t j * p t','X t i * X t j','weights dropped','weighted covariance')
m('Mom.estimateSampleMoments',O,'nonNeg q (1 / 10 ^ 9) ∧ sumToOne q (1 / 10 ^ 6)','sumToOne q (1 / 10 ^ 6)','negative probabilities accepted','probabilities are validated')
m('Mom.shrinkMeanJorion',O,'nObs ≤ 0 ∨ N ≤ 2','nObs ≤ 0 ∨ N ≤ 1','two assets accepted','more than two assets required')
m('Mom.shrinkMeanJorion',O,'((N : ℝ) + 2) / (((N : ℝ) + 2)','((N : ℝ) - 2) / (((N : ℝ) + 2)','numerator N-2','Jorion intensity')
m('Mom.shrinkMeanJorion',O,'mu i - vc * diff i','mu i + vc * diff i','moves away from the target','shrinks toward the global minimum variance return')
m('Mom.shrinkMeanJorion',O,'min (max v 0) 1','v','clip dropped','intensity in [0,1] (equivalent for PSD S)')
m('Mom.jsTarget',O,'(∑ i, mu i) / N','(∑ i, mu i)','sum instead of mean','grand mean target')
m('Mom.jsShrink',O,'max 0 (1 - ((N : ℝ) - 2) / quad)','1 - ((N : ℝ) - 2) / quad','positive part dropped','shrinkage factor in [0,1]')
m('Mom.jsShrink',O,'if quad ≤ 0 then 0','if quad ≤ 0 then 1','no shrinkage at the target','degenerate case')
m('Mom.shrinkMeanJamesStein',O,'t i + jsShrink','mu i + jsShrink','starts from the sample mean','result between target and sample mean')
m('Mom.lwIdentity',O,'(S.trace / N)','S.trace','scale not averaged','identity target has the trace of S')
m('Mom.lwRbar',O,'/ ((N : ℝ) * ((N : ℝ) - 1))\n\n/-- Constant','/ ((N : ℝ) * (N : ℝ))\n\n/-- Constant','divides by N squared','average off-diagonal correlation')
m('Mom.lwConstCorr',O,'if i = j then S i i else','if i = j then 1 else','unit diagonal','variances kept')
m('Mom.lwDelta',O,'some (min (max (if identity then kappa else kappa / nObs) 0) 1)','some (if identity then kappa else kappa / nObs)','clip dropped','intensity in [0,1]')
m('Mom.lwBlend',O,'(d • F + (1 - d) • S)','(d • S + (1 - d) • F)','target and sample swapped','delta weights the target')
m('Mom.shrinkLedoitWolf',O,'if T = 0 then .error .valueError\n    else\n      let S','if T = 1 then .error .valueError\n    else\n      let S','wrong size check','empty data raises')
m('Mom.shrinkLedoitWolf',O,'| .otherString => .error .valueError\n\n/-- `emp_cov','| .otherString => .ok Shat\n\n/-- `emp_cov','unknown target ignored','unknown target raises')
m('Mom.oasShrinkage',O,'min (((1 - 2 / N) * alpha + mu * mu) / denom) 1','((1 - 2 / N) * alpha + mu * mu) / denom','cap dropped','intensity at most one')
m('Mom.oasShrinkage',O,'if denom ≤ 0 then 1','if denom ≤ 0 then 0','degenerate intensity 0','degenerate case is fully shrunk')
m('Mom.oasBlend',O,'(s * (C.trace / N))','(s * C.trace)','trace not averaged','trace preserved')
m('Mom.shrinkOas',O,'if assumeCentered then R else centred R','if assumeCentered then centred R else R','flag inverted','data centred unless assume_centered')
m('Mom.ewmaStep',O,'lam • C + (1 - lam) • vecMulVec r r','(1 - lam) • C + lam • vecMulVec r r','weights swapped','EWMA recursion')
m('Mom.ewmaLambda',O,'1 - 2 / ((span : ℝ) + 1)','2 / ((span : ℝ) + 1)','lambda and alpha swapped','lambda = 1 - 2/(span+1)')
m('Mom.covarianceEwma',O,'(rows.length : ℤ) < minPeriods','(rows.length : ℤ) ≤ minPeriods','strict','min_periods rows suffice')
R='MomentsRobust'
m('Mom.median',R,'some ((a + b) / 2)','some a','lower median','median averages the middle pair')
m('Mom.npCov1',R,'/ ((T : ℝ) - 1))\n\n/-! ## POET','/ (T : ℝ))\n\n/-! ## POET','ddof 0','unbiased covariance')
m('Mom.poetScale',R,'if s ≤ 1 / 10 ^ 12 then 1 else s','s','zero scale kept','no division by zero')
m('Mom.poetSelect',R,'if k ≤ 0 then .error .valueError else .ok (max 1 (min k.toNat N))','.ok (max 1 (min k.toNat N))','k <= 0 accepted','k must be positive')
m('Mom.poetSelect',R,'.ok (max 1 (min k.toNat N))','.ok k.toNat','not clipped','k at most N')
m('Mom.poetFactor',R,'if (l : ℕ) < k then','if (l : ℕ) ≤ k then','one factor too many','k factors are kept')
m('Mom.softOff',R,'max (|A i j| - tau) 0','(|A i j| - tau)','positive part dropped','soft threshold shrinks')
m('Mom.softOff',R,'if i = j then A i j else','if False then A i j else','diagonal thresholded','variances are not thresholded')
m('Mom.poetTau',R,'if t < 0 then .error .valueError else .ok t','.ok t','negative threshold accepted','threshold must be nonnegative')
m('Mom.poetCombine',R,'Matrix.diagonal scale * B * Matrix.diagonal scale','Matrix.diagonal scale * B','rescaled once','scale restored on both sides')
m('Mom.tylerUpdate',R,'.ok (((N : ℝ) / V.trace) • V)','.ok V','not normalised','trace normalised to N')
m('Mom.tylerLoop',R,'(1 - shrinkage) • U + shrinkage • target','shrinkage • U + (1 - shrinkage) • target','shrinkage inverted','full shrinkage gives the target')
m('Mom.tylerWeight',R,'(N : ℝ) / max','1 / max','weight not scaled by N','Tyler weight (scale is normalised away: expected equivalent)')
m('Mom.tylerTraceTarget',R,'≤ 0 then 1','≤ 0 then 0','zero scale','degenerate scale is one')
m('Mom.tyler',R,'(tylerTraceTarget S / N) • C','tylerTraceTarget S • C','scale not divided by N','trace restored')
m('Mom.tyler',R,'if maxIter ≤ 0 then .error .other','if maxIter < 0 then .error .other','max_iter 0 accepted','(C-level finding)')
m('Mom.huberWeight',R,'min 1 (tau /','max 1 (tau /','min replaced by max','weights at most one')
m('Mom.huberNext',R,'/ (xs.map (huberWeight tau mu)).sum','/ (xs.length : ℝ)','weights not normalised','result is a convex combination')
m('Mom.huberLoop',R,'≤ tol * (|mu| + 1) then mu\'','≤ tol * (|mu| + 1) then mu','previous iterate returned','returns the converged iterate')
m('Mom.ceilSqrt',R,'Nat.sqrt n + 1','Nat.sqrt n','floor','ceil of the square root')
m('Mom.momBlocks',R,'| .num k => if k ≤ 0 then .error .valueError else .ok (max 1 (min (min','| .num k => if k < 0 then .error .valueError else .ok (max 1 (min (min','zero blocks accepted','n_blocks must be positive')
m('Mom.blockSizes',R,'if b < nObs % B then 1 else 0','0','remainder dropped','blocks partition the sample')
m('Mom.splitBySizes',R,'splitBySizes ss (l.drop s)','splitBySizes ss l','blocks overlap','blocks partition the sample')
m('Mom.listMean',R,'some (l.sum / l.length)','some l.sum','sum instead of mean','block means')
D='Distribution'
m('Api.mergeNames',D,'if candidate = l then .ok (some l) else .error .valueError','.ok (some l)','label conflicts accepted','labels must agree')
m('Api.checkColumns',D,'if columns = l then .ok (some l) else .error .valueError','.ok (some l)','cov columns unchecked','labels must agree')
m('Api.namesScen',D,'mergeNames names ((List.finRange g.cols).map columns)','.ok names','scenario columns ignored','names come from the scenarios')
m('Api.finVec',D,'if l.length ≠ N then .error .valueError\n  else ','','length unchecked','mu has one entry per asset')
m('Api.finVec',D,'else if l.all PyFloat.isFinite = false then .error .valueError\n  else .ok','else if False then .error .valueError\n  else .ok','non-finite accepted','inputs are finite')
m('Api.finGrid',D,'if ∀ i j, (g.e i j).isFinite = true then','if True then','non-finite accepted','inputs are finite')
m('Api.scenProbs',D,'if T = 0 then .error .valueError else .ok (fun _ => (1','if T = 1 then .error .valueError else .ok (fun _ => (1','wrong size check','at least one scenario')
m('Api.scenProbs',D,'else if l.any (fun x => x.lt (.fin 0)) then .error .valueError\n','','negative probabilities accepted','probabilities are nonnegative')
m('Api.scenProbs',D,'.ok (fun t => v t / ∑ s, v s)','.ok v','not normalised','probabilities sum to one')
m('Api.scenProbs',D,'if ∑ t, v t ≤ 0 then','if ∑ t, v t < 0 then','zero sum accepted','probabilities have a positive sum')
m('Api.namesBad',D,'decide (l.length ≠ N)','false','names length unchecked','one name per asset')
m('Api.mkDist',D,'| some 0 => .error .valueError','| some 0 => .ok ⟨0, none, none, none, names⟩','zero assets accepted','at least one asset')
m('Api.priceReturns',D,'ratioM1 (g.e ⟨t + 1, by omega⟩ i) (g.e ⟨t, by omega⟩ i)','ratioM1 (g.e ⟨t, by omega⟩ i) (g.e ⟨t + 1, by omega⟩ i)','ratio inverted','simple returns from prices')
m('Api.pricesOk',D,'.le (.fin 0) = false','.lt (.fin 0) = false','zero prices accepted','prices are positive')
m('Api.fromPrices',D,'if a.g.rows < 2','if a.g.rows < 1','one row accepted','two rows required')
m('Api.expM1',D,'.fin (Real.exp x - 1)','.fin (Real.exp x)','minus one dropped','log to simple')
m('Api.fromScenarios',D,'if returnType = "log" then toSimple s else s','if returnType = "simple" then s else toSimple s','unknown types treated as log','return types other than log unchanged')
V='Validation'
m('Valid.ensurePsd',V,'let k := max 0 (-(minEig M)) + jitter','let k := max 0 (-(minEig M))','jitter not added','repaired matrix is positive definite')
m('Valid.ensurePsd',V,'let M : Matrix (Fin N) (Fin N) ℝ := (1 / 2 : ℝ) • (A + Aᵀ)','let M : Matrix (Fin N) (Fin N) ℝ := A','not symmetrised','result is symmetric')
m('Valid.nonNeg',V,'-tol ≤ w t','tol ≤ w t','sign','zero weights accepted')
m('Valid.sumToOne',V,'|∑ t, w t - 1| ≤ tol','∑ t, w t - 1 ≤ tol','absolute value dropped','sum close to one')
P='Optimization'
m('Opt.linspace',P,'/ ((num : ℝ) - 1))','/ (num : ℝ))','endpoint missed','grid ends at the maximum return')
m('Opt.frontier',P,'(k + 1)))','k))','targets shifted','equally spaced targets')
m('Opt.frontier',P,'num < 2 ∨','num < 3 ∨','two portfolios give one','num portfolios')
m('Opt.quadraticTurnover',P,'q i - 2 * (lam i * w0 i)','q i + 2 * (lam i * w0 i)','sign of the linear term','impact is measured from w0')
m('Opt.mvInit',P,'2 * cov i j\n  let q','cov i j\n  let q','factor 2 dropped','objective balance variance and impact')
m('Opt.withTarget',P,'(fun i => -(mean i), -t)','(fun i => mean i, t)','target inequality reversed','return at least the target')
m('Opt.mvSolve',P,'| none => assertOptimal (solver _ inferInstance { mvProg m target with P := mvRidge m })','| none => .error .valueError','no retry, wrong exception','failure is RuntimeError')
m('Opt.maxReturn',P,'.ok (-(dot (fun v => -(meanRow v)) x))','.ok (dot (fun v => -(meanRow v)) x)','sign of the value','maximum return')
m('Opt.maxSharpe',P,'y i / s','y i','not normalised','weights sum to one')
m('Opt.sharpeProg',P,'m.mean i - rf','m.mean i','risk-free rate ignored','excess return normalisation')
m('Opt.cvBase',P,'a.p t / a.alpha','a.p t','tail level dropped','Rockafellar-Uryasev objective')
m('Opt.cvBase',P,'(blocks (fun i => -(a.R t i)) (-1)','(blocks (fun i => a.R t i) (-1)','loss sign','tail of losses')
m('Opt.tradeRows',P,'(Sum.elim (fun j => if j = i then -1 else 0) (fun j => if j = i then 1 else 0)), w0 i)','(Sum.elim (fun j => if j = i then -1 else 0) (fun j => if j = i then 1 else 0)), 0)','w0 ignored','turnover measured from w0')
m('Opt.cvCosts',P,'(Sum.elim costs costs)','(Sum.elim costs (fun _ => 0))','sales are free','cost on purchases and sales')
m('Opt.robProg',P,'(fun _ => 1), Real.sqrt s)','(fun _ => 1), s)','cap not square-rooted','squared risk at most the cap')
m('Opt.robProg',P,'Sum.elim (fun i => -(a.mean i)) (fun _ => penalty)','Sum.elim (fun i => -(a.mean i)) (fun _ => 1)','penalty ignored','lambda weights the risk')
m('Opt.robLambda',P,'if lam < 0 then .error .valueError else robSolve solver a L lam none','robSolve solver a L lam none','negative penalty accepted','lambda must be nonnegative')
m('Opt.robGamma',P,'if gammaMu < 0 ∨ gammaSigmaSq < 0','if gammaMu < 0','negative cap accepted','gamma parameters must be nonnegative')
m('Opt.rrpBudgets',P,'if ∃ i, b i ≤ 0','if ∃ i, b i < 0','zero budgets accepted','budgets must be positive')
m('Opt.rrpBudgets',P,'else .ok (fun i => b i / ∑ j, b j)','else .ok b','not normalised','budgets sum to one')
m('Opt.hasBudgetRow',P,'∃ r ∈ A, ∀ i,','∃ r ∈ A, ∃ i,','any row with a one','budget row recognised')
m('Opt.rrpProg',P,'(rblocks (fun j => -(a.cov i j)) (unit i 1) (fun _ => 0), 0)','(rblocks (fun j => -(a.cov i j)) (unit i 1) (fun _ => 0), 1)','marginal risk shifted','zeta is the marginal risk')
m('Opt.rrpProg',P,'(unit .gamma (-(2 * Real.sqrt (a.budgets i))))','(unit .gamma (-(Real.sqrt (a.budgets i))))','factor 2 dropped','x zeta >= gamma^2 b')
m('Opt.rrpProg',P,'(unit .psi (-(Real.sqrt n))), 0)','(unit .psi (-1)), 0)','sqrt n dropped','psi bounds average risk')
m('Opt.rrpClip',P,'| some m => max t m','| some m => min t m','floor replaced by ceiling','target at least min_target')
m('Opt.rrpClip',P,'if maxRet - tol ≤ target then maxRet - tol else target','target','clip dropped','target attainable')
m('Opt.rrpSolve',P,'if lam < 0 then .error .valueError\n','if lam ≤ 0 then .error .valueError\n','lambda 0 rejected','lambda 0 is pure risk parity')
m('Opt.rrpFinish',P,'objective := x (Sum.inr (Sum.inr .psi)) - x (Sum.inr (Sum.inr .gamma))','objective := x (Sum.inr (Sum.inr .psi))','gamma dropped','objective is psi - gamma')
S='Samples'; E='EnsembleSpec'; Q='SpecDist'
m('Api.specWrapper',E,'| none => .ok w\n    | some c','| none => .error .valueError\n    | some c','constraints required','defaults used without constraints')
m('Api.resolveOptimiser',E,'.ok .cvar','.ok .variance','cvar mapped to variance','optimiser names')
m('Api.resolveOptimiser',E,'else .error .valueError','else .ok .variance','unknown accepted','unknown optimiser raises')
m('Api.specFactory',E,'match specWrapper d constraints with','match specWrapper d none with','constraints ignored','optimiser constraints are honoured')
m('Api.annualise',Q,'| some f => Proj.projectMeanCov x.1 x.2 f','| some f => Proj.projectMeanCov x.1 x.2 1','factor ignored','annualisation')
m('Api.applyProjection',Q,'if first then false else o.toSimple.getD false','false','to_simple ignored','either key converts')
m('Api.applyProjection',Q,'if left || o.unknown then','if left then','unknown keys accepted','unknown keys raise')
m('Api.applyProjection',Q,'if first then o.toSimple.isSome else false','false','both keys accepted','(fixes the bug: C120_counterexample must fail)')
m('Api.reindexProbs',Q,'(l.lookup (index t)).getD .nan','(l.getD t ("", .nan)).2','positional instead of label','probabilities matched by label')
m('Api.specProbs',Q,'if (reindexProbs l f.index).any isNan then .error .valueError\n    else','if False then .error .valueError\n    else','missing labels not tested','missing labels raise (still by the finite test: expected equivalent)')
m('Api.momentDist',Q,'(1 / 10 ^ 10 : ℝ) •','(0 : ℝ) •','no ridge','covariance positive definite')
m('Api.momArgs',Q,'(columns i, PyFloat.fin (mu i))','("", PyFloat.fin (mu i))','mean unlabelled','labels of mean and covariance agree')
m('Api.preprocessed',Q,'| some g => g f0','| some _ => .ok f0','preprocess ignored','preprocessing is applied')
m('Api.projected',Q,'| some o => applyProjection m o','| some _ => .ok m','projection ignored','projection is applied')
m('Api.buildDistribution',Q,'match factory with\n  | some r => r\n  | none =>\n    match distribution with\n    | some d => .ok d\n    | none =>','match distribution with\n  | some d => .ok d\n  | none =>\n    match factory with\n    | some r => r\n    | none =>','distribution before factory','factory takes precedence')
m('Api.buildDistribution',Q,'if useScenarios then','if !useScenarios then','flag inverted','scenario mode')
json.dump(M,open('/tmp/scratch/m5.json','w'))
for x in M:
    s=open('/verif/lean/'+x['file']).read()
    if s.count(x['old'])!=x['count']: print(x['id'],x['defn'],s.count(x['old']),x['old'][:60])
print(len(M))
