import json
M=[]; N0=300
def m(defn, file, old, new, edit, claim, count=1):
    M.append(dict(id='M%03d'%(len(M)+1+N0), defn=defn, file='Verif/Model/%s.lean'%file, old=old, new=new, edit=edit, claim=claim, count=count))
B='Bayesian'
m('Bayes.symPart',B,'(1 / 2 : ℝ) • (A + Aᵀ)','A','no symmetrisation','the factored matrix is the symmetric part')
m('Bayes.cholLoop',B,'if cur = 0 then minJitter else cur * 10','cur + minJitter','jitter grows additively','jitter multiplies by ten')
m('Bayes.cholLoop',B,'| 0 => ⟨.error .runtimeError, [cur]⟩','| 0 => ⟨.error .valueError, [cur]⟩','wrong exception','failure after max attempts is RuntimeError')
m('Bayes.cholSquare',B,'maxAttempts 0','maxAttempts jitter','first attempt already jittered','a positive definite matrix is factored unperturbed')
m('Bayes.cholSquare',B,'(maxAttempts : ℕ := 6)','(maxAttempts : ℕ := 5)','one attempt fewer','seven factorisations are tried')
m('Bayes.chi2Quantile',B,'if ¬ (0 < p ∧ p < 1) then .error .valueError else .ok (ppf p dof)','if ¬ (0 ≤ p ∧ p < 1) then .error .valueError else .ok (ppf p dof)','p = 0 accepted','p must be strictly between 0 and 1')
m('Bayes.mergeIndex',B,'if i = l ∧ c = l','if i = l','columns unchecked','index and columns must match mu labels')
m('Bayes.mergeIndex',B,'| none, some (i, _) => .ok (some i)','| none, some (_, c) => .ok (some c)','columns instead of index','index taken from the covariance rows')
m('Bayes.mkNiw',B,'if t0 ≤ 0 then','if t0 < 0 then','t0 = 0 accepted','t0 must be positive')
m('Bayes.mkNiw',B,'else if nu0 < 0 then','else if nu0 ≤ 0 then','nu0 = 0 rejected','nu0 = 0 is valid')
m('Bayes.init',B,'if mu.n = 0 then .error .valueError\n  else\n    match mergeIndex','if mu.n = 1 then .error .valueError\n  else\n    match mergeIndex','single asset rejected, empty accepted','at least one asset')
m('Bayes.mu1Of',B,'(t0 * mu i + nObs * smu i)','(nObs * mu i + t0 * smu i)','weights swapped','posterior mean weights prior by t0')
m('Bayes.sigma1Of',B,'(1 / nObs + 1 / t0)','(nObs + t0)','harmonic weight replaced','posterior scale formula')
m('Bayes.sigma1Of',B,'/ (nu0 + nObs))','/ (t0 + nObs))','nu1 replaced by T1','posterior scale formula')
m('Bayes.posterior',B,'.ok ⟨t0 + nObs, mu1Of t0 nObs mu smu, nu0 + nObs,','.ok ⟨t0 + nObs, mu1Of t0 nObs mu smu, nu0,','nu1 not updated','nu1 = nu0 + n_obs')
m('Bayes.posterior',B,'if t0 = 0 then .error .zeroDivision\n    else ','','zero division dropped','fractional t0 then update raises ZeroDivisionError (C63)')
m('Bayes.update',B,'if o.post.isSome then .error .runtimeError\n    else ','','second update allowed','update may be called once')
m('Bayes.update',B,'if nObs ≤ 0 then','if nObs < 0 then','zero observations accepted','n_obs must be positive')
m('Bayes.getMuCe',B,'| none => .error .runtimeError\n  | some p => .ok ⟨p.mu1, o.index⟩','| none => .ok ⟨o.mu, o.index⟩\n  | some p => .ok ⟨p.mu1, o.index⟩','prior returned before update','getters before update raise RuntimeError')
m('Bayes.getMuCe',B,'.ok ⟨p.mu1, o.index⟩','.ok ⟨p.mu1, none⟩','labels dropped','labels of the prior are returned')
m('Bayes.getSMu',B,'if p.nu1 ≤ 2','if p.nu1 < 2','nu1 = 2 accepted','nu1 must exceed 2')
m('Bayes.getSMu',B,'(p.nu1 / (p.T1 * (p.nu1 - 2)))','(1 / (p.T1 * (p.nu1 - 2)))','nu1 factor dropped','S_mu formula')
m('Bayes.getSigmaCe',B,'else .ok ⟨(p.nu1 / (p.nu1 + o.n + 1)) • p.sigma1','else .ok ⟨(p.nu1 / (p.nu1 - o.n - 1)) • p.sigma1','mean instead of mode','Sigma_ce formula')
m('Bayes.gammaMu',B,'(nu1 / (nu1 - 2))','((nu1 - 2) / nu1)','ratio inverted','credible radius formula')
m('Bayes.credRadiusMu',B,'if P.nu1 ≤ 2 then .error .valueError\n      else ','','nu1 check dropped','nu1 must exceed 2')
m('Bayes.credRadiusMu',B,'chi2Quantile ppf p o.n','chi2Quantile ppf p (o.n - 1)','wrong degrees of freedom','N degrees of freedom')
m('Bayes.cSigma',B,'den ^ 3','den ^ 2','wrong power','C_sigma formula')
m('Bayes.credRadiusSigma',B,'chi2Quantile ppf p (o.n * (o.n + 1) / 2)','chi2Quantile ppf p (o.n * (o.n - 1) / 2)','wrong degrees of freedom','N(N+1)/2 degrees of freedom')
m('Bayes.bundle',B,'some p.nu1, some o.n, some p.T1','some p.nu1, some o.n, some p.nu1','T1 replaced by nu1','bundle radii equal those of the posterior')
m('Bayes.covLog',B,'(h ^ 2) • r.sMu','h • r.sMu','h not squared','uncertainty scales with horizon squared')
m('Bayes.sigma1',B,'((v + k + 1) / v)','(v / (v + k + 1))','ratio inverted','sigma1 inverts the classical-equivalent scaling')
m('Bayes.rCredRadiusMu',B,'.ok (gammaMu q t v)','.ok (gammaMu q v t)','arguments swapped','bundle radii equal those of the posterior')
m('Bayes.covSimple',B,'simpleScale r h exact_ i * (r.sMu i j * h ^ 2) * simpleScale r h exact_ j','simpleScale r h exact_ i * (r.sMu i j * h ^ 2) * simpleScale r h exact_ i','row scale twice','delta method J S J')
m('Bayes.simpleScale',B,'if exact_ then','if !exact_ then','flag inverted','exact uses the lognormal mean derivative')
L='BlackLitterman'
m('BL.target',L,'| .seq _ => .error .valueError','| .seq l => .ok (l.getD 0 0)','long sequences accepted','sequences must have one element')
m('BL.pickRow',L,'i 1) j (-1)','i (-1)) j 1','sign swapped','relative view is first minus second')
m('BL.parseConf',L,'| .none => 1)))','| .none => 0)))','default confidence 0','missing confidences default to 1')
m('BL.parseConf',L,'if l.length ≠ keys.length then .error .valueError else .ok (some l)','.ok (some l)','length unchecked','confidence arrays must have one entry per view')
m('BL.clipConf',L,'min (max c (1 / 10 ^ 6)) (1 - 1 / 10 ^ 6)','min (max c 0) 1','clip bounds 0 and 1','confidence clipped away from 0 and 1')
m('BL.buildOmega',L,'if useTau then tauSigma else sigma','if useTau then sigma else tauSigma','flag inverted','idzorek_use_tau')
m('BL.buildOmega',L,'(1 - clipConf (c.getD k 0)) / clipConf (c.getD k 0)','clipConf (c.getD k 0) / (1 - clipConf (c.getD k 0))','odds inverted','more confidence, less uncertainty')
m('BL.buildOmega',L,'(P * tauSigma * Pᵀ) k k','(P * sigma * Pᵀ) k k','tau dropped','default omega uses tau sigma')
m('BL.buildOmega',L,'if l.length = K then .ok','if True then .ok','length unchecked','omega vector must have one entry per view')
m('BL.posterior',L,'(Q - P *ᵥ pi)','(P *ᵥ pi - Q)','sign of the surprise','posterior moves towards the views')
m('BL.posterior',L,'sigma + tauSigma - middle','sigma + tauSigma + middle','sign of the reduction','views reduce uncertainty')
m('BL.posterior',L,'let A := P * tauSigma * Pᵀ + omega','let A := P * sigma * Pᵀ + omega','tau dropped','posterior formula')
m('BL.priorPi',L,'(fun i => w i / ∑ j, w j)','w','weights not normalised','equilibrium returns use normalised market weights')
m('BL.construct',L,'if a.riskAversion ≤ 0','if a.riskAversion < 0','zero risk aversion accepted','risk aversion must be positive')
m('BL.symmetrise',L,'else (1 / 2 : ℝ) • (sigma + sigmaᵀ)','else sigma','never symmetrised','posterior covariance symmetric')
m('BL.assetIndex',L,'match indexOf assets (.int k) with\n        | some i => .ok i\n        | none => if','match (none : Option (Fin N)) with\n        | some i => .ok i\n        | none => if','integer labels of digit strings ignored','labels take precedence over positions')
X='EntropyPooling'
m('EP.exponent',X,'logp s - 1 - ∑','logp s - 1 + ∑','sign of the multiplier term','first-order condition of the dual')
m('EP.dualObjective',X,'1000 * (rhs k - ∑ s, lhs k s * x s)','1000 * (∑ s, lhs k s * x s - rhs k)','gradient sign','gradient is the derivative of the value')
m('EP.dualObjective',X,'(-(-(∑ s, x s) - ∑ k, l k * rhs k))','(-(-(∑ s, x s) + ∑ k, l k * rhs k))','sign of the linear term','dual objective')
m('EP.solve',X,'.ok (fun s => q s / total)','.ok q','not normalised','posterior sums to one')
m('EP.methodOk',X,'m == "TNC" || m == "L-BFGS-B"','true','methods unchecked','unknown methods raise ValueError')
m('EP.entropyPooling',X,'normalizeVec p true','normalizeVec p false','zero priors accepted','prior must be strictly positive')
m('EP.entropyPooling',X,'(Sum.elim (fun _ => false) (fun _ => true))','(Sum.elim (fun _ => true) (fun _ => true))','equality multipliers bounded','equality constraints hold at the optimum')
m('EP.entropyPooling',X,'(Sum.elim (fun _ => false) (fun _ => true))','(Sum.elim (fun _ => false) (fun _ => false))','inequality multipliers free','inequality multipliers are nonnegative')
json.dump(M,open('/tmp/scratch/m4.json','w'))
import collections
for x in M:
    s=open('/verif/lean/'+x['file']).read()
    if s.count(x['old'])!=x['count']: print(x['id'],x['defn'],s.count(x['old']),x['old'][:60])
print(len(M))
