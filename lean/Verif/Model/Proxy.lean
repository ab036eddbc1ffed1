import Verif.Model.Quantizer
import Verif.Model.FixedPoint

/-!
Quantizer part of `ProxyLayerXFormer` in `/repo/src/HGQ/proxy/convert.py`.
-/

namespace HGQ

/-- `k, b, i = k, k + i + f, k + i` (convert.py line 271) handed to `FixedPointQuantizer(k, b, i, ..)`, one element. -/
def proxyQ (b : KIF) : KBI := KBI.init b.k (b.k + b.i + b.f) (b.k + b.i)

/-- the rounding mode chosen by `get_kbiRS`, convert.py lines 272-275. -/
def proxyRnd (strategy : ℤ) (canBiasCoverRnd : Bool) : Rnd :=
  if strategy ≠ 3 ∧ ¬ canBiasCoverRnd then .RND else .TRN

/-- the overflow mode chosen by `to_proxy_model`, convert.py line 371. -/
def proxySat (aggressive : Bool) : Sat := if aggressive then .WRAP else .SAT

end HGQ
