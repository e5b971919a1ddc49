import json
M=[]; N0=100
def m(defn, file, old, new, edit, claim, count=1):
    M.append(dict(id='M%03d'%(len(M)+1+N0), defn=defn, file='Verif/Model/%s.lean'%file, old=old, new=new, edit=edit, claim=claim, count=count))
P='Probabilities'
m('Probs.normalize',P,'if xs.isEmpty then .error .valueError\n  else if','if False then .error .valueError\n  else if','empty check dropped','empty vectors are rejected (still by the sum test: expected equivalent)')
m('Probs.normalize',P,'x.le (.fin 0)','x.lt (.fin 0)','strictly_positive accepts zeros','strictly positive vectors required')
m('Probs.normalize',P,'!strictlyPositive && xs.any','strictlyPositive && xs.any','negative entries accepted when not strict','probabilities are nonnegative')
m('Probs.normalize',P,'.ok (ps.map (· / total))','.ok ps','never normalises','result sums to one')
m('Probs.normalize',P,'else if !isclose1 total','else if isclose1 total','normalises only when already close','result sums to one within tolerance')
m('Probs.uniform',P,'if n ≤ 0','if n < 0','n = 0 accepted','non-positive counts raise')
m('Probs.uniform',P,'(1 / (n : K))','(1 / ((n : K) + 1))','wrong uniform weight','uniform sums to one')
m('Probs.resolve',P,'if (ps.length : ℤ) ≠ n then','if (ps.length : ℤ) < n then','longer vectors accepted','length mismatch raises')
m('Probs.ensHhi',P,'1 / ∑ s, p s ^ 2','∑ s, p s ^ 2','reciprocal dropped','effective number between 1 and S')
m('Probs.expDecay',P,'((T : ℝ) - ((t : ℕ) + 1))','((t : ℕ) : ℝ)','decay applied to recent instead of old observations','most recent observation has the largest weight, halving each half-life')
m('Probs.expDecay',P,'if halfLife ≤ 0','if halfLife < 0','half_life 0 accepted','non-positive half-life raises')
m('Probs.expDecay',P,'-(Real.log 2) / halfLife','-1 / halfLife','log 2 factor dropped','weights halve each half-life')
m('Probs.silverman',P,'-(1:ℝ) / 5','(1:ℝ) / 5','bandwidth grows with n','Silverman rule')
m('Probs.silverman',P,'/ (n - 1))','/ n)','ddof=0','Silverman rule')
m('Probs.kernel',P,'(2 * h ^ 2)','(h ^ 2)','factor 2 dropped','Gaussian kernel weight')
m('Probs.gaussianKernel',P,'x ⟨n - 1, by omega⟩','x ⟨0, by omega⟩','first instead of last observation','weights peak at the latest observation by default')
m('Probs.gaussianKernel',P,'.ok (fun t => w t / ∑ s, w s)','.ok w','not normalised','kernel probabilities sum to one')
m('Probs.ens',P,'Real.exp (-(∑','Real.exp ((∑','sign of entropy','effective number between 1 and S')
R='Risk'
m('Risk.maybeDemean',R,'if demean then','if !demean then','demean flag inverted','demean subtracts the mean exactly when asked')
m('Risk.boolArgmax',R,'| none => (List.finRange T).head?','| none => none','no True raises','(unreachable default)')
m('Risk.varIndex',R,'≥ 1 - conf','> 1 - conf','strict cumulative test','VaR is the lower quantile')
m('Risk.varIndex',R,'≥ 1 - conf','≥ conf','confidence instead of tail level','VaR at confidence level')
m('Risk.checkConf',R,'0 < conf ∧ conf < 1','0 < conf ∧ conf ≤ 1','confidence 1 accepted','confidence outside (0,1) raises')
m('Risk.checkConf',R,'(95 / 100)','(99 / 100)','default confidence 0.99','default confidence 0.95')
m('Risk.portfolioVar',R,'| some k => .ok (-(x (σ k)))','| some k => .ok (x (σ k))','sign of VaR','VaR is the loss')
m('Risk.portfolioCvar',R,'strictSum + v * (alpha - strictProb)','strictSum','atom at VaR dropped','CVaR is the tail mean')
m('Risk.portfolioCvar',R,'.ok (-cvar)','.ok cvar','sign of CVaR','CVaR is the loss')
m('Risk.portfolioCvar',R,'let strictProb := ∑ t, p t * (if x t < v then 1 else 0)','let strictProb := ∑ t, p t * (if x t ≤ v then 1 else 0)','atom counted in the strict tail','CVaR is the tail mean')
m('Risk.scenarioProbs',R,'1 / (T : K)','1 / ((T : K) - 1)','uniform weights with T-1','default weights are uniform')
F='Performance'
m('Perf.alignWeights',F,'&& names.all (fun x => (rows.map Prod.fst).contains x) then','then','missing labels not detected by the set test','stress_test rejects missing labels (rowOf still does: expected equivalent)')
m('Perf.alignWeights',F,'(rows.map Prod.fst).all (fun x => names.contains x) && names','names','extra labels accepted','stress_test rejects extra labels')
m('Perf.alignWeights',F,'mapE (rowOf rows) names','.ok (rows.map Prod.snd)','labels ignored','weights aligned by label')
m('Perf.reindex',F,'if rows.map Prod.fst = cols then','if (rows.map Prod.fst).length = cols.length then','positional when lengths agree','performance_report aligned by label')
m('Perf.nanDot',F,'then some (∑ i, x i * (w i).getD 0) else none','then some (∑ i, x i * (w i).getD 0) else some 0','NaN replaced by 0','missing labels give NaN')
m('Perf.scenarioPnl',F,'if rows.length ≠ N then .error .valueError\n    else .ok (fun t m','if rows.length < N then .error .valueError\n    else .ok (fun t m','too many weights accepted','shape mismatch raises')
m('Perf.metricsOf',F,'stdev := Real.sqrt (∑','stdev := (∑','variance instead of stdev','stdev is the square root of the variance')
m('Perf.metricsOf',F,'var := v\n            cvar := c','var := c\n            cvar := v','VaR and CVaR swapped','VaR <= CVaR')
m('Perf.performanceReport',F,'Probs.resolve probabilities T false with\n      | .error e => .error e\n      | .ok p =>','Probs.resolve none T false with\n      | .error e => .error e\n      | .ok p =>','probabilities ignored','report uses the given probabilities')
m('Perf.performanceReport',F,'if rows.any Option.isNone then .error .valueError\n            else if','if False then .error .valueError\n            else if','NaN rows become zero weight','missing labels raise')
m('Perf.klDivergence',F,'Real.log (clip (pStar t) / clip (pNom t))','Real.log (clip (pNom t) / clip (pStar t))','reversed ratio','KL(stressed || nominal) >= 0')
m('Perf.applyTransform',F,'if ¬(X.length = T ∧ X.all (fun r => r.length == N)) then','if ¬(X.length = T) then','column count unchecked','transform must keep the shape')
m('Perf.applyTransform',F,'else if ¬ X.all (fun r => r.all PyFloat.isFinite) then .error .valueError\n','\n','finiteness unchecked','non-finite transformed scenarios raise')
m('Perf.stressPart',F,'if stressed.isNone && transform.isNone then','if stressed.isNone || transform.isNone then','stress skipped when only one input is given','stressed rows present iff a stress is given')
m('Perf.stressPart',F,'metrics argsort Rs pStar conf','metrics argsort R pStar conf','transform ignored','stressed rows use transformed scenarios')
m('Perf.stressPart',F,'klDivergence (toVec T pStar) (toVec T pNom)','klDivergence (toVec T pNom) (toVec T pStar)','KL arguments swapped','KL(stressed || nominal)')
m('Perf.stressTest',F,'metrics argsort R pNom conf demean W with\n            | .error e => .error e\n            | .ok nominal','metrics argsort R pNom conf (!demean) W with\n            | .error e => .error e\n            | .ok nominal','nominal metrics with the wrong demean flag','nominal and no-op stress agree')
m('Perf.linearMap',F,'∑ j, R t j * matrix i j','∑ j, R t j * matrix i j + 1','constant added','linear map')
m('Perf.linearMap',F,'fun t i => X t i * s','fun t i => X t i + s','scale added instead of multiplied','linear map scales')
m('Perf.expDecayStress',F,'stressTest argsort w R assets probabilities (some (List.ofFn (fun t => PyFloat.fin (q t)))) none conf demean\n\n/-- `kernel_focus','stressTest argsort w R assets none (some (List.ofFn (fun t => PyFloat.fin (q t)))) none conf demean\n\n/-- `kernel_focus','nominal probabilities dropped','nominal metrics use the given probabilities')
m('Perf.kernelFocusStress',F,'if focus.length ≠ T then','if focus.length < T then','longer focus series accepted','focus series must have one entry per scenario')
m('Perf.horizonLabel',F,'if h = 13 then "3m"','if h = 12 then "3m"','wrong label','labels of horizons')
m('Perf.horizonReport',F,'(List.range horizons.length).zip horizons','(List.replicate horizons.length 0).zip horizons','same seed for every horizon','horizon i uses seed + i')
m('Perf.runningMax',F,'decide (s ≤ t)','decide (s < t)','(equivalent: starts from wealth t)','running maximum')
m('Perf.runningMax',F,'(wealth t)\n\n/-- `drawdowns`','0\n\n/-- `drawdowns`','running maximum starts at 0','drawdown for negative wealth')
m('Perf.drawdown',F,'if 0 < m then m else 1','m','division by a non-positive maximum','drawdown nonnegative')
m('Perf.quantileSorted',F,'0 ≤ q ∧ q ≤ 1','0 < q ∧ q ≤ 1','q = 0 rejected','confidence levels in [0,1] accepted')
m('Perf.quantileSorted',F,'.ok (a + (v - (lo : K)) * (b - a))','.ok a','no interpolation','np.quantile linear interpolation')
m('Perf.ddSummary',F,'quantile maxDd confidence with','quantile maxDd (1 - confidence) with','complementary level','level is the quantile at confidence')
m('Perf.drawdownQuantile',F,'1 + ∑ i, paths a t i','∑ i, paths a t i','initial wealth dropped','wealth starts from 1')
J='Projection'
m('Proj.projectMeanCov',J,'cov i j * f)','cov i j * f * f)','covariance scaled by f^2','mean and covariance scale linearly with the horizon')
m('Proj.simpleToCompound',J,'x t ≤ -1 then','x t < -1 then','return -1 accepted','returns <= -100% raise')
m('Proj.log2simple',J,'mu i + 1 / 2 * d i','mu i','variance term dropped in the mean','lognormal moments')
m('Proj.log2simple',J,'2 * cov i j)) - e i * e j','cov i j)) - e i * e j','factor 2 dropped','lognormal moments')
m('Proj.simple2log',J,'if ∃ i, m i ≤ 0','if ∃ i, m i < 0','mean -100% accepted','non-positive gross mean raises')
m('Proj.simple2log',J,'Real.log (m i) - 1 / 2 * varg i','Real.log (m i)','variance correction dropped','simple2log inverts log2simple')
m('Proj.projWeights',J,'else if v.any (fun x => x.lt (.fin 0)) then .error .valueError\n','\n','negative weights accepted (choice still rejects)','negative probabilities raise')
m('Proj.projWeights',J,'else .ok (x.map (· / x.sum))\n\n/-- Scenario weights of `simulate','else .ok x\n\n/-- Scenario weights of `simulate','never normalised','weights with any positive sum are normalised')
m('Proj.searchRight',J,'cdf w t ≤ u','cdf w t < u','searchsorted left','zero-probability rows are never drawn')
m('Proj.choice',J,'1 / 2 ^ 26 <','1 <','sum test removed','choice tolerance')
m('Proj.projectScenarios',J,'if horizon ≤ 0 then .error .valueError\n  else if n','if horizon < 0 then .error .valueError\n  else if n','horizon 0 accepted','non-positive horizon raises')
m('Proj.projectScenarios',J,'.ok (fun a i => ∑ b, s a b i)','.ok (fun a i => ∑ b, s a b i + 1)','offset per step','projected scenario = sum of drawn rows')
m('Proj.simulatePaths',J,'if b ≤ t then','if b < t then','path excludes the current step','path at t is the sum of the first t+1 draws')
m('Proj.repriceTaylor',J,'1 / 2 * ga * dy ^ 2','ga * dy ^ 2','factor one half dropped','second-order Taylor')
m('Proj.repriceTaylor',J,'pnl + th * tau','pnl - th * tau','theta sign','second-order Taylor')
m('Proj.makeRepricing',J,'- price y0 j','','base price not subtracted','P&L is zero for zero moves')
m('Proj.colIndex',J,'.getLast?','.head?','first duplicate instead of last','(labels assumed unique: expected equivalent)')
m('Proj.driverCols',J,'.ok (i :: is)','.ok (is ++ [i])','drivers reversed','drivers are passed in the listed order')
m('Proj.parseSpec',J,'| none => .error .keyError\n    | some i => .ok ([i], f)','| none => .ok ([0], f)\n    | some i => .ok ([i], f)','unknown instrument uses column 0','missing driver raises KeyError')
m('Proj.parseSpec',J,'| .other => .error .typeError','| .other => .error .valueError','wrong exception','non-callable spec raises TypeError')
json.dump(M,open('/tmp/scratch/m2.json','w'))
print(len(M))
