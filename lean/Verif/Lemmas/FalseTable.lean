import Verif.Model.FalseSymbols
/-
The table of falseness groups as numbers (for checking by evaluation): a row is the number whose hexadecimal digits,
from the lowest, are its bells.
-/
namespace Ringing
namespace Falseness

/-- The rows and names of the table, as numbers. -/
def heads : List (Nat × Nat) :=
  [(5517840, 16640), (4530960, 16945), (3428880, 16946), (5387280, 16946), (5517600, 16946), (5509680, 16946),
   (3298320, 17201), (4526880, 17202), (4530480, 17202), (5456160, 17457), (2364720, 17457), (5514000, 17458),
   (5321280, 17458), (1323600, 17458), (4534560, 17713), (4526640, 17713), (4346640, 17714), (3482640, 17714),
   (3428640, 17969), (5379120, 17969), (2442000, 17970), (4400400, 17970), (2176320, 18176), (1262160, 18176),
   (1389120, 18481), (4272720, 18481), (1262880, 18482), (2180400, 18482), (2299200, 18482), (2310480, 18482),
   (1200960, 18688), (3220560, 18688), (3232320, 19249), (1193040, 19249), (5325600, 19250), (1320240, 19250),
   (5448000, 19250), (2364240, 19250), (1385280, 19251), (4268880, 19251), (2311440, 19505), (4396320, 19506),
   (2441520, 19506), (3490320, 19712), (4338960, 19712), (4411920, 19712), (2438160, 19712), (1393440, 20017),
   (4269360, 20017), (2429760, 20017), (4399440, 20017), (3478080, 20018), (4338000, 20018), (1389600, 20018),
   (4280880, 20018), (3297600, 20019), (3282000, 20019), (3232800, 20019), (1201200, 20019), (3228960, 20273),
   (1197360, 20273), (2314560, 20273), (2298960, 20273), (1266240, 20274), (2176080, 20274), (1193280, 20274),
   (3228240, 20274), (5317440, 20529), (1319760, 20529), (1254720, 20530), (2179920, 20530), (1266720, 20992),
   (2184240, 20992), (3282240, 20992), (3293520, 20992), (4281120, 21248), (1385520, 21248), (3481920, 21248),
   (4330320, 21248), (5391120, 21553), (3417360, 21553), (5444160, 21553), (2371920, 21553), (2380560, 21553),
   (5448720, 21553), (1324320, 21553), (5325360, 21553), (3490080, 21554), (4330800, 21554), (4411680, 21554),
   (2430000, 21554), (5509920, 21809), (5321760, 21809), (5513520, 21809), (1331760, 21809), (5386560, 21809),
   (3412560, 21809), (3478560, 21810), (4346160, 21810), (4534800, 24881), (5456400, 24882), (2372880, 24882),
   (2315280, 25088), (3294480, 25088), (5444640, 25344), (3413280, 25344), (5390640, 25344), (2380080, 25344),
   (1332000, 25600), (5317680, 25600), (5378880, 25600), (3416400, 25600), (4273440, 25856), (1393200, 25856),
   (2437440, 25856), (4395600, 25856), (2184000, 26112), (1254480, 26112), (3220800, 26112), (1196880, 26112)]

/-- The plain bob group on 8 bells. -/
def pbs8 : List Nat :=
  [1985229328, 1732584208, 1969439008, 1463161888, 1685213488, 1176966448, 1399939648, 890709568, 1113682768,
   605435728, 827487328, 321210208, 558065008, 305419888]

/-- The plain bob group on 10 bells. -/
def pbs10 : List Nat :=
  [654820258320, 590143103760, 650777936160, 521170981920, 578016137520, 447903896880, 504985903680,
   374620038720, 431687299920, 301320451920, 358387713120, 228021848160, 285103854960, 154991614320,
   211836769920, 82229815680, 142864648080, 78187493520]

/-- The plain bob group on 12 bells. -/
def pbs12 : List Nat :=
  [205163983024656, 188606631453456, 204129148551456, 170949768254496, 185502128034096, 152193393431856,
   166806388040256, 133432723646016, 148041928635216, 114667759941456, 129277200860256, 95902780508256,
   110512221427056, 77138052733296, 91747257722496, 58373593328256, 72986587936656, 39677853334416,
   54230213114016, 21050832817056, 36573349915056, 20015998343856]

/-- The named rows on eight bells, with the letters. -/
def known8 : List (Nat × Nat) :=
  [(1985229328, 65), (1984242448, 66), (1983140368, 66), (1985098768, 66), (1985229088, 66), (1985221168, 66),
   (1983009808, 67), (1984238368, 67), (1984241968, 67), (1985167648, 68), (1982076208, 68), (1985225488, 68),
   (1985032768, 68), (1981035088, 68), (1984246048, 69), (1984238128, 69), (1984058128, 69), (1983194128, 69),
   (1983140128, 70), (1985090608, 70), (1982153488, 70), (1984111888, 70), (1981887808, 71), (1980973648, 71),
   (1981100608, 72), (1983984208, 72), (1980974368, 72), (1981891888, 72), (1982010688, 72), (1982021968, 72),
   (1980912448, 73), (1982932048, 73), (1982943808, 75), (1980904528, 75), (1985037088, 75), (1981031728, 75),
   (1985159488, 75), (1982075728, 75), (1981096768, 75), (1983980368, 75), (1982022928, 76), (1984107808, 76),
   (1982153008, 76), (1983201808, 77), (1984050448, 77), (1984123408, 77), (1982149648, 77), (1981104928, 78),
   (1983980848, 78), (1982141248, 78), (1984110928, 78), (1983189568, 78), (1984049488, 78), (1981101088, 78),
   (1983992368, 78), (1983009088, 78), (1982993488, 78), (1982944288, 78), (1980912688, 78), (1982940448, 79),
   (1980908848, 79), (1982026048, 79), (1982010448, 79), (1980977728, 79), (1981887568, 79), (1980904768, 79),
   (1982939728, 79), (1985028928, 80), (1981031248, 80), (1980966208, 80), (1981891408, 80), (1980978208, 82),
   (1981895728, 82), (1982993728, 82), (1983005008, 82), (1983992608, 83), (1981097008, 83), (1983193408, 83),
   (1984041808, 83), (1985102608, 84), (1983128848, 84), (1985155648, 84), (1982083408, 84), (1982092048, 84),
   (1985160208, 84), (1981035808, 84), (1985036848, 84), (1983201568, 84), (1984042288, 84), (1984123168, 84),
   (1982141488, 84), (1985221408, 85), (1985033248, 85), (1985225008, 85), (1981043248, 85), (1985098048, 85),
   (1983124048, 85), (1983190048, 85), (1984057648, 85), (1984246288, 97), (1985167888, 97), (1982084368, 97),
   (1982026768, 98), (1983005968, 98), (1985156128, 99), (1983124768, 99), (1985102128, 99), (1982091568, 99),
   (1981043488, 100), (1985029168, 100), (1985090368, 100), (1983127888, 100), (1983984928, 101),
   (1981104688, 101), (1982148928, 101), (1984107088, 101), (1981895488, 102), (1980965968, 102),
   (1982932288, 102), (1980908368, 102), (1933710688, 88), (1898198368, 89), (1949377888, 90)]

/-- The inverses of the named rows with split tenors. -/
def inverse8 : List (Nat × Nat) :=
  [(1898275888, 88), (1898198368, 89), (1898337088, 90)]

/-- The named rows on 10 bells. -/
def known10 : List (Nat × Nat) :=
  [(654820258320, 16640), (654819271440, 16945), (654818169360, 16946), (654820127760, 16946),
   (654820258080, 16946), (654820250160, 16946), (654818038800, 17201), (654819267360, 17202),
   (654819270960, 17202), (654820196640, 16945), (654817105200, 16945), (654820254480, 17458),
   (654820061760, 17458), (654816064080, 17458), (654819275040, 17713), (654819267120, 17713),
   (654819087120, 17714), (654818223120, 17714), (654818169120, 17969), (654820119600, 17969),
   (654817182480, 17970), (654819140880, 17970), (654816916800, 18176), (654816002640, 18176),
   (654816129600, 18481), (654819013200, 18481), (654816003360, 18482), (654816920880, 18482),
   (654817039680, 18482), (654817050960, 18482), (654815941440, 18688), (654817961040, 18688),
   (654817972800, 19249), (654815933520, 19249), (654820066080, 19250), (654816060720, 19250),
   (654820188480, 19250), (654817104720, 19250), (654816125760, 19251), (654819009360, 19251),
   (654817051920, 19505), (654819136800, 19506), (654817182000, 19506), (654818230800, 19712),
   (654819079440, 19712), (654819152400, 19712), (654817178640, 19712), (654816133920, 20017),
   (654819009840, 20017), (654817170240, 20017), (654819139920, 20017), (654818218560, 20018),
   (654819078480, 20018), (654816130080, 20018), (654819021360, 20018), (654818038080, 20019),
   (654818022480, 20019), (654817973280, 20019), (654815941680, 20019), (654817969440, 20273),
   (654815937840, 20273), (654817055040, 20273), (654817039440, 20273), (654816006720, 20274),
   (654816916560, 20274), (654815933760, 20274), (654817968720, 20274), (654820057920, 20529),
   (654816060240, 20529), (654815995200, 20530), (654816920400, 20530), (654816007200, 20992),
   (654816924720, 20992), (654818022720, 20992), (654818034000, 20992), (654819021600, 21248),
   (654816126000, 21248), (654818222400, 21248), (654819070800, 21248), (654820131600, 21553),
   (654818157840, 21553), (654820184640, 21553), (654817112400, 21553), (654817121040, 21553),
   (654820189200, 21553), (654816064800, 21553), (654820065840, 21553), (654818230560, 21554),
   (654819071280, 21554), (654819152160, 21554), (654817170480, 21554), (654820250400, 21809),
   (654820062240, 21809), (654820254000, 21809), (654816072240, 21809), (654820127040, 21809),
   (654818153040, 21809), (654818219040, 21810), (654819086640, 21810), (654819275280, 24881),
   (654820196880, 24882), (654817113360, 24882), (654817055760, 25088), (654818034960, 25088),
   (654820185120, 25344), (654818153760, 25344), (654820131120, 25344), (654817120560, 25344),
   (654816072480, 25600), (654820058160, 25600), (654820119360, 25600), (654818156880, 25600),
   (654819013920, 25856), (654816133680, 25856), (654817177920, 25856), (654819136080, 25856),
   (654816924480, 26112), (654815994960, 26112), (654817961280, 26112), (654815937360, 26112)]

/-- The named rows on 12 bells. -/
def known12 : List (Nat × Nat) :=
  [(205163983024656, 16640), (205163982037776, 16945), (205163980935696, 16946), (205163982894096, 16946),
   (205163983024416, 16946), (205163983016496, 16946), (205163980805136, 17201), (205163982033696, 17202),
   (205163982037296, 17202), (205163982962976, 17457), (205163979871536, 17457), (205163983020816, 17458),
   (205163982828096, 17458), (205163978830416, 17458), (205163982041376, 17713), (205163982033456, 17713),
   (205163981853456, 17714), (205163980989456, 17714), (205163980935456, 17969), (205163982885936, 17969),
   (205163979948816, 17970), (205163981907216, 17970), (205163979683136, 18176), (205163978768976, 18176),
   (205163978895936, 18481), (205163981779536, 18481), (205163978769696, 18482), (205163979687216, 18482),
   (205163979806016, 18482), (205163979817296, 18482), (205163978707776, 18688), (205163980727376, 18688),
   (205163980739136, 19249), (205163978699856, 19249), (205163982832416, 19250), (205163978827056, 19250),
   (205163982954816, 19250), (205163979871056, 19250), (205163978892096, 19251), (205163981775696, 19251),
   (205163979818256, 19505), (205163981903136, 19506), (205163979948336, 19506), (205163980997136, 19712),
   (205163981845776, 19712), (205163981918736, 19712), (205163979944976, 19712), (205163978900256, 20017),
   (205163981776176, 20017), (205163979936576, 20017), (205163981906256, 20017), (205163980984896, 20018),
   (205163981844816, 20018), (205163978896416, 20018), (205163981787696, 20018), (205163980804416, 20019),
   (205163980788816, 20019), (205163980739616, 20019), (205163978708016, 20019), (205163980735776, 20273),
   (205163978704176, 20273), (205163979821376, 20273), (205163979805776, 20273), (205163978773056, 20274),
   (205163979682896, 20274), (205163978700096, 20274), (205163980735056, 20274), (205163982824256, 20529),
   (205163978826576, 20529), (205163978761536, 20530), (205163979686736, 20530), (205163978773536, 20992),
   (205163979691056, 20992), (205163980789056, 20992), (205163980800336, 20992), (205163981787936, 21248),
   (205163978892336, 21248), (205163980988736, 21248), (205163981837136, 21248), (205163982897936, 21553),
   (205163980924176, 21553), (205163982950976, 21553), (205163979878736, 21553), (205163979887376, 21553),
   (205163982955536, 21553), (205163978831136, 21553), (205163982832176, 21553), (205163980996896, 21554),
   (205163981837616, 21554), (205163981918496, 21554), (205163979936816, 21554), (205163983016736, 21809),
   (205163982828576, 21809), (205163983020336, 21809), (205163978838576, 21809), (205163982893376, 21809),
   (205163980919376, 21809), (205163980985376, 21810), (205163981852976, 21810), (205163982041616, 24881),
   (205163982963216, 24882), (205163979879696, 24882), (205163979822096, 25088), (205163980801296, 25088),
   (205163982951456, 25344), (205163980920096, 25344), (205163982897456, 25344), (205163979886896, 25344),
   (205163978838816, 25600), (205163982824496, 25600), (205163982885696, 25600), (205163980923216, 25600),
   (205163981780256, 25856), (205163978900016, 25856), (205163979944256, 25856), (205163981902416, 25856),
   (205163979690816, 26112), (205163978761296, 26112), (205163980727616, 26112), (205163978703696, 26112)]

/-- How each row of the table is a turned representative or inverse of a representative: the row, the
representative, the turned row, the sign and four more than the shift. -/
def turns : List (Nat × Nat × Nat × Nat × Nat) :=
  [(5517840, 5517840, 5517840, 1, 0), (4530960, 4530960, 4530960, 1, 4), (3428880, 3428880, 3428880, 1, 4),
   (5387280, 3428880, 3428880, 1, 1), (5517600, 3428880, 3428880, 1, 2), (5509680, 3428880, 3428880, 1, 3),
   (3298320, 3298320, 3298320, 1, 4), (4526880, 4526880, 4526880, 1, 4), (4530480, 4526880, 4526880, 0, 4),
   (5456160, 5456160, 5456160, 1, 4), (2364720, 5456160, 5456160, 1, 5), (5514000, 5514000, 5514000, 1, 4),
   (5321280, 5514000, 5514000, 1, 3), (1323600, 5514000, 5514000, 1, 5), (4534560, 4534560, 4534560, 1, 4),
   (4526640, 4534560, 4534560, 0, 4), (4346640, 4346640, 4346640, 1, 4), (3482640, 4346640, 4346640, 0, 4),
   (3428640, 3428640, 3428640, 1, 4), (5379120, 3428640, 3428640, 1, 3), (2442000, 2442000, 2442000, 1, 4),
   (4400400, 2442000, 2442000, 0, 4), (2176320, 2176320, 2176320, 1, 4), (1262160, 2176320, 2176320, 0, 4),
   (1389120, 1389120, 1389120, 1, 4), (4272720, 1389120, 1389120, 0, 4), (1262880, 1262880, 1262880, 1, 4),
   (2180400, 1262880, 1262880, 0, 4), (2299200, 1262880, 2310480, 0, 4), (2310480, 1262880, 2310480, 1, 4),
   (1200960, 1200960, 1200960, 1, 4), (3220560, 1200960, 1200960, 0, 4), (3232320, 3232320, 3232320, 1, 4),
   (1193040, 3232320, 3232320, 0, 4), (5325600, 5325600, 5325600, 1, 4), (1320240, 5325600, 5325600, 0, 4),
   (5448000, 5325600, 5325600, 0, 3), (2364240, 5325600, 5325600, 1, 5), (1385280, 1385280, 1385280, 1, 4),
   (4268880, 1385280, 1385280, 0, 4), (2311440, 2311440, 2311440, 1, 4), (4396320, 4396320, 4396320, 1, 4),
   (2441520, 4396320, 4396320, 0, 4), (3490320, 3490320, 3490320, 1, 4), (4338960, 3490320, 3490320, 0, 4),
   (4411920, 3490320, 4411920, 1, 4), (2438160, 3490320, 4411920, 0, 4), (1393440, 1393440, 1393440, 1, 4),
   (4269360, 1393440, 1393440, 0, 4), (2429760, 1393440, 4399440, 0, 4), (4399440, 1393440, 4399440, 1, 4),
   (3478080, 3478080, 3478080, 1, 4), (4338000, 3478080, 3478080, 0, 4), (1389600, 3478080, 4280880, 0, 4),
   (4280880, 3478080, 4280880, 1, 4), (3297600, 3297600, 3297600, 1, 4), (3282000, 3297600, 3297600, 0, 4),
   (3232800, 3297600, 3232800, 1, 4), (1201200, 3297600, 3232800, 0, 4), (3228960, 3228960, 3228960, 1, 4),
   (1197360, 3228960, 3228960, 0, 4), (2314560, 3228960, 2314560, 1, 4), (2298960, 3228960, 2314560, 0, 4),
   (1266240, 1266240, 1266240, 1, 4), (2176080, 1266240, 1266240, 0, 4), (1193280, 1266240, 3228240, 0, 4),
   (3228240, 1266240, 3228240, 1, 4), (5317440, 5317440, 5317440, 1, 4), (1319760, 5317440, 5317440, 1, 5),
   (1254720, 1254720, 1254720, 1, 4), (2179920, 1254720, 1254720, 0, 4), (1266720, 1266720, 1266720, 1, 4),
   (2184240, 1266720, 1266720, 0, 4), (3282240, 1266720, 3293520, 0, 4), (3293520, 1266720, 3293520, 1, 4),
   (4281120, 4281120, 4281120, 1, 4), (1385520, 4281120, 4281120, 0, 4), (3481920, 4281120, 3481920, 1, 4),
   (4330320, 4281120, 3481920, 0, 4), (5391120, 5391120, 5391120, 1, 4), (3417360, 5391120, 5391120, 0, 4),
   (5444160, 5391120, 5391120, 0, 3), (2371920, 5391120, 5391120, 1, 5), (2380560, 5391120, 5448720, 0, 4),
   (5448720, 5391120, 5448720, 1, 4), (1324320, 5391120, 5448720, 1, 5), (5325360, 5391120, 5448720, 0, 3),
   (3490080, 3490080, 3490080, 1, 4), (4330800, 3490080, 3490080, 0, 4), (4411680, 3490080, 4411680, 1, 4),
   (2430000, 3490080, 4411680, 0, 4), (5509920, 5509920, 5509920, 1, 4), (5321760, 5509920, 5509920, 1, 3),
   (5513520, 5509920, 5509920, 0, 4), (1331760, 5509920, 5509920, 0, 5), (5386560, 5509920, 5509920, 0, 3),
   (3412560, 5509920, 5509920, 1, 5), (3478560, 3478560, 3478560, 1, 4), (4346160, 3478560, 3478560, 0, 4),
   (4534800, 4534800, 4534800, 1, 4), (5456400, 5456400, 5456400, 1, 4), (2372880, 5456400, 5456400, 1, 5),
   (2315280, 2315280, 2315280, 1, 4), (3294480, 2315280, 3294480, 1, 4), (5444640, 5444640, 5444640, 1, 4),
   (3413280, 5444640, 5444640, 1, 5), (5390640, 5444640, 5444640, 0, 3), (2380080, 5444640, 5444640, 0, 4),
   (1332000, 1332000, 1332000, 1, 4), (5317680, 1332000, 1332000, 1, 3), (5378880, 1332000, 3416400, 1, 3),
   (3416400, 1332000, 3416400, 1, 4), (4273440, 4273440, 4273440, 1, 4), (1393200, 4273440, 4273440, 0, 4),
   (2437440, 4273440, 2437440, 1, 4), (4395600, 4273440, 2437440, 0, 4), (2184000, 2184000, 2184000, 1, 4),
   (1254480, 2184000, 2184000, 0, 4), (3220800, 2184000, 3220800, 1, 4), (1196880, 2184000, 3220800, 0, 4)]

/-- How each row on eight bells with the treble and tenor in their places is moved from a representative or its
inverse: the row, the representative, the moved row and the numbers of the lead heads. -/
def moves8 : List (Nat × Nat × Nat × Nat × Nat) :=
  [(1985229328, 1985229328, 1985229328, 0, 0), (1969500688, 1985167648, 1985167648, 0, 2),
   (1984246288, 1984246288, 1984246288, 0, 0), (1952789008, 1985102608, 1985160208, 13, 13),
   (1967534608, 1985102608, 1985102608, 13, 13), (1951805968, 1984242448, 1984242448, 4, 5),
   (1985167888, 1984246288, 1984246288, 12, 11), (1969439248, 1984242448, 1984242448, 12, 11),
   (1983201808, 1983201808, 1983201808, 0, 0), (1936015888, 1983140128, 1983140128, 0, 2),
   (1966490128, 1984246048, 1984246048, 2, 0), (1935032848, 1983201808, 1983201808, 12, 11),
   (1984123408, 1983201808, 1983201808, 13, 13), (1952666128, 1984246048, 1984246048, 0, 2),
   (1983140368, 1984242448, 1984242448, 6, 8), (1935954448, 1985102608, 1985102608, 12, 11),
   (1949717008, 1983009808, 1983009808, 12, 11), (1933988368, 1982026768, 1983005968, 12, 11),
   (1967350288, 1983140128, 1983140128, 2, 0), (1951621648, 1983201808, 1983201808, 2, 2),
   (1966367248, 1985102608, 1985160208, 12, 11), (1934909968, 1984246288, 1984246288, 2, 2),
   (1949655568, 1982026768, 1982026768, 12, 11), (1933926928, 1982022928, 1982022928, 12, 11),
   (1985225488, 1985167648, 1985167648, 11, 13), (1969496848, 1985156128, 1985156128, 2, 0),
   (1984242448, 1984242448, 1984242448, 0, 0), (1952785168, 1985221408, 1985221408, 11, 13),
   (1967530768, 1985221408, 1985221408, 12, 10), (1951802128, 1982943808, 1982943808, 2, 2),
   (1985102608, 1985102608, 1985102608, 0, 0), (1969373968, 1985221408, 1985221408, 1, 4),
   (1982153488, 1983140128, 1983140128, 6, 7), (1919238928, 1985156128, 1985156128, 1, 4),
   (1965441808, 1981104928, 1984110928, 8, 8), (1918255888, 1982940448, 1982940448, 11, 13),
   (1984058128, 1984246048, 1984246048, 11, 13), (1952600848, 1983009808, 1983009808, 8, 3),
   (1982092048, 1985102608, 1985160208, 1, 1), (1919177488, 1982022928, 1982022928, 8, 5),
   (1948668688, 1983992608, 1983992608, 5, 3), (1917211408, 1983984928, 1983984928, 11, 13),
   (1967285008, 1981104928, 1984110928, 5, 6), (1951556368, 1981104928, 1981104928, 11, 13),
   (1965318928, 1980978208, 1980978208, 2, 0), (1918133008, 1981100608, 1981100608, 2, 2),
   (1948607248, 1981043488, 1981043488, 6, 7), (1917149968, 1985102608, 1985160208, 7, 9),
   (1985160208, 1985102608, 1985160208, 0, 0), (1969431568, 1985221408, 1985221408, 2, 0),
   (1983194128, 1984246048, 1984246048, 13, 12), (1936008208, 1981104928, 1981104928, 6, 5),
   (1966482448, 1983009808, 1983009808, 4, 7), (1935025168, 1981104928, 1984110928, 13, 12),
   (1985098768, 1984242448, 1984242448, 8, 9), (1969370128, 1982943808, 1982943808, 11, 12),
   (1982149648, 1983201808, 1983201808, 11, 12), (1919235088, 1982940448, 1982026048, 0, 2),
   (1965437968, 1981104928, 1981104928, 2, 0), (1918252048, 1985221408, 1985221408, 7, 8),
   (1983009808, 1983009808, 1983009808, 0, 0), (1935823888, 1983992608, 1983193408, 0, 2),
   (1982026768, 1982026768, 1982026768, 0, 0), (1919112208, 1983984928, 1982148928, 0, 2),
   (1931891728, 1980912448, 1980912448, 4, 7), (1916163088, 1984246048, 1984246048, 7, 6),
   (1966236688, 1983992608, 1983992608, 2, 0), (1934779408, 1984246048, 1984246048, 3, 4),
   (1965253648, 1981043488, 1981043488, 2, 0), (1918067728, 1983984928, 1983984928, 3, 4),
   (1931830288, 1983984928, 1983984928, 7, 3), (1916101648, 1933710688, 1898275888, 1, 10),
   (1984111888, 1983140128, 1983140128, 8, 6), (1952654608, 1981104928, 1981104928, 7, 7),
   (1983128848, 1985102608, 1985102608, 1, 1), (1935942928, 1980978208, 1983005008, 0, 2),
   (1949705488, 1983992608, 1983193408, 4, 5), (1933976848, 1981043488, 1983127888, 8, 6),
   (1984050448, 1983201808, 1983201808, 1, 1), (1952593168, 1981104928, 1984110928, 0, 2),
   (1982084368, 1984246288, 1984246288, 10, 10), (1919169808, 1981100608, 1981100608, 10, 10),
   (1948661008, 1984246048, 1984246048, 10, 10), (1917203728, 1983984928, 1982148928, 10, 10),
   (1983005968, 1982026768, 1983005968, 0, 0), (1935820048, 1981043488, 1983127888, 0, 2),
   (1982022928, 1982022928, 1982022928, 0, 0), (1919108368, 1985102608, 1985102608, 4, 6),
   (1931887888, 1983984928, 1982148928, 9, 6), (1916159248, 1933710688, 1933710688, 3, 11),
   (1949459728, 1980912448, 1980912448, 9, 5), (1933731088, 1983984928, 1982148928, 4, 8),
   (1948476688, 1983984928, 1983984928, 6, 9), (1917019408, 1983201808, 1983201808, 7, 7),
   (1931765008, 1898198368, 1898198368, 5, 5), (1916036368, 1981887808, 1981887808, 9, 3),
   (1967334928, 1985156128, 1985156128, 6, 3), (1951606288, 1982940448, 1982026048, 13, 12),
   (1966351888, 1982022928, 1982022928, 4, 9), (1934894608, 1981100608, 1981100608, 3, 4),
   (1949640208, 1983984928, 1982148928, 13, 12), (1933911568, 1985102608, 1985102608, 9, 8),
   (1967273488, 1982940448, 1982940448, 2, 0), (1951544848, 1985221408, 1985221408, 6, 6),
   (1965307408, 1981100608, 1981100608, 11, 12), (1918121488, 1985167648, 1985167648, 5, 7),
   (1948595728, 1983984928, 1983984928, 10, 10), (1917138448, 1981887808, 1981887808, 10, 10),
   (1966229008, 1983984928, 1983984928, 2, 0), (1934771728, 1983984928, 1982148928, 3, 4),
   (1965245968, 1985102608, 1985160208, 6, 3), (1918060048, 1981887808, 1981887808, 3, 4),
   (1931822608, 1983201808, 1983201808, 6, 5), (1916093968, 1898198368, 1898198368, 9, 3),
   (1949455888, 1984246048, 1984246048, 6, 8), (1933727248, 1933710688, 1933710688, 7, 3),
   (1948472848, 1933710688, 1898275888, 9, 6), (1917015568, 1898198368, 1898198368, 1, 11),
   (1931761168, 1981887808, 1981887808, 4, 9), (1916032528, 1984246288, 1984246288, 6, 8),
   (1985229088, 1984242448, 1984242448, 12, 13), (1969500448, 1984246288, 1984246288, 12, 13),
   (1984246048, 1984246048, 1984246048, 0, 0), (1952788768, 1983201808, 1983201808, 13, 11),
   (1967534368, 1983201808, 1983201808, 2, 0), (1951805728, 1983140128, 1983140128, 2, 2),
   (1985167648, 1985167648, 1985167648, 0, 0), (1969439008, 1985229328, 1985229328, 0, 2),
   (1983201568, 1985102608, 1985102608, 12, 13), (1936015648, 1984242448, 1984242448, 6, 5),
   (1966489888, 1984246288, 1984246288, 2, 0), (1935032608, 1985102608, 1985160208, 12, 13),
   (1984123168, 1985102608, 1985160208, 13, 11), (1952665888, 1984246288, 1984246288, 0, 2),
   (1983140128, 1983140128, 1983140128, 0, 0), (1935954208, 1983201808, 1983201808, 0, 2),
   (1949716768, 1982022928, 1982022928, 12, 13), (1933988128, 1982026768, 1982026768, 12, 13),
   (1967350048, 1984242448, 1984242448, 4, 8), (1951621408, 1985102608, 1985102608, 13, 11),
   (1966367008, 1983201808, 1983201808, 12, 13), (1934909728, 1984246048, 1984246048, 2, 2),
   (1949655328, 1982026768, 1983005968, 12, 13), (1933926688, 1983009808, 1983009808, 12, 13),
   (1985221408, 1985221408, 1985221408, 0, 0), (1969492768, 1985102608, 1985160208, 2, 0),
   (1984238368, 1983009808, 1983009808, 6, 7), (1952781088, 1981104928, 1984110928, 12, 12),
   (1967526688, 1984246048, 1984246048, 12, 12), (1951798048, 1981104928, 1981104928, 4, 5),
   (1985037088, 1982943808, 1982943808, 9, 12), (1969308448, 1984242448, 1984242448, 10, 9),
   (1981104928, 1981104928, 1981104928, 0, 0), (1902461728, 1985221408, 1985221408, 5, 8),
   (1964393248, 1983201808, 1983201808, 9, 12), (1901478688, 1982940448, 1982026048, 2, 2),
   (1983992608, 1983992608, 1983992608, 0, 0), (1952535328, 1984246048, 1984246048, 1, 4),
   (1981043488, 1981043488, 1981043488, 0, 0), (1902400288, 1983984928, 1983984928, 1, 4),
   (1947620128, 1983984928, 1983984928, 5, 3), (1900434208, 1933710688, 1898275888, 3, 10),
   (1967219488, 1983009808, 1983009808, 2, 0), (1951490848, 1983992608, 1983193408, 2, 2),
   (1964270368, 1982026768, 1982026768, 2, 0), (1901355808, 1983984928, 1982148928, 2, 2),
   (1947558688, 1980912448, 1980912448, 6, 7), (1900372768, 1984246048, 1984246048, 5, 6),
   (1985156128, 1985156128, 1985156128, 0, 0), (1969427488, 1985167648, 1985167648, 9, 13),
   (1983190048, 1985221408, 1985221408, 13, 10), (1936004128, 1982943808, 1982943808, 0, 2),
   (1966478368, 1984242448, 1984242448, 2, 0), (1935021088, 1985221408, 1985221408, 9, 13),
   (1985033248, 1985221408, 1985221408, 3, 4), (1969304608, 1985102608, 1985102608, 2, 0),
   (1981101088, 1981104928, 1984110928, 10, 8), (1902457888, 1982940448, 1982940448, 9, 13),
   (1964389408, 1983140128, 1983140128, 4, 7), (1901474848, 1985156128, 1985156128, 3, 4),
   (1982944288, 1981104928, 1984110928, 7, 6), (1935758368, 1981104928, 1981104928, 9, 13),
   (1980978208, 1980978208, 1980978208, 0, 0), (1902335008, 1981100608, 1981100608, 0, 2),
   (1930843168, 1981043488, 1981043488, 4, 7), (1899385888, 1985102608, 1985160208, 5, 9),
   (1966171168, 1984246048, 1984246048, 9, 13), (1934713888, 1983009808, 1983009808, 10, 3),
   (1964205088, 1985102608, 1985160208, 3, 1), (1901290528, 1982022928, 1982022928, 10, 5),
   (1930781728, 1983992608, 1983992608, 7, 3), (1899324448, 1983984928, 1983984928, 9, 13),
   (1984107808, 1982022928, 1982022928, 6, 9), (1952650528, 1981100608, 1981100608, 1, 4),
   (1983124768, 1985156128, 1985156128, 4, 3), (1935938848, 1982940448, 1982026048, 12, 12),
   (1949701408, 1985102608, 1985102608, 11, 8), (1933972768, 1983984928, 1982148928, 12, 12),
   (1983984928, 1983984928, 1983984928, 0, 0), (1952527648, 1983984928, 1982148928, 1, 4),
   (1981035808, 1985102608, 1985160208, 4, 3), (1902392608, 1981887808, 1981887808, 1, 4),
   (1947612448, 1983201808, 1983201808, 4, 5), (1900426528, 1898198368, 1898198368, 11, 3),
   (1982940448, 1982940448, 1982940448, 0, 0), (1935754528, 1985221408, 1985221408, 4, 6),
   (1980974368, 1981100608, 1981100608, 9, 12), (1902331168, 1985167648, 1985167648, 7, 7),
   (1930839328, 1983984928, 1983984928, 8, 10), (1899382048, 1981887808, 1981887808, 8, 10),
   (1949394208, 1933710688, 1933710688, 5, 3), (1933665568, 1984246048, 1984246048, 4, 8),
   (1947428128, 1981887808, 1981887808, 6, 9), (1900242208, 1984246288, 1984246288, 4, 8),
   (1930716448, 1933710688, 1898275888, 11, 6), (1899259168, 1898198368, 1898198368, 3, 11),
   (1967330848, 1985102608, 1985102608, 3, 1), (1951602208, 1980978208, 1983005008, 2, 2),
   (1966347808, 1983140128, 1983140128, 10, 6), (1934890528, 1981104928, 1981104928, 5, 7),
   (1949636128, 1981043488, 1983127888, 10, 6), (1933907488, 1983992608, 1983193408, 6, 5),
   (1967207968, 1982026768, 1983005968, 2, 0), (1951479328, 1981043488, 1983127888, 2, 2),
   (1964258848, 1982022928, 1982022928, 2, 0), (1901344288, 1985102608, 1985102608, 6, 6),
   (1947547168, 1983984928, 1982148928, 11, 6), (1900361248, 1933710688, 1933710688, 1, 11),
   (1966163488, 1983201808, 1983201808, 3, 1), (1934706208, 1981104928, 1984110928, 2, 2),
   (1964197408, 1984246288, 1984246288, 8, 10), (1901282848, 1981100608, 1981100608, 8, 10),
   (1930774048, 1984246048, 1984246048, 8, 10), (1899316768, 1983984928, 1982148928, 8, 10),
   (1949390368, 1983984928, 1982148928, 6, 8), (1933661728, 1980912448, 1980912448, 11, 5),
   (1947424288, 1898198368, 1898198368, 7, 5), (1900238368, 1981887808, 1981887808, 11, 3),
   (1930712608, 1983984928, 1983984928, 4, 9), (1899255328, 1983201808, 1983201808, 5, 7),
   (1985225008, 1985221408, 1985221408, 1, 1), (1969496368, 1985102608, 1985102608, 0, 2),
   (1984241968, 1983009808, 1983009808, 8, 6), (1952784688, 1984246048, 1984246048, 11, 11),
   (1967530288, 1981104928, 1981104928, 11, 11), (1951801648, 1981104928, 1984110928, 5, 3),
   (1985102128, 1985156128, 1985156128, 2, 2), (1969373488, 1985167648, 1985167648, 11, 11),
   (1982153008, 1982022928, 1982022928, 8, 8), (1919238448, 1985102608, 1985160208, 1, 4),
   (1965441328, 1981100608, 1981100608, 2, 0), (1918255408, 1980978208, 1980978208, 2, 2),
   (1984057648, 1985221408, 1985221408, 11, 11), (1952600368, 1984242448, 1984242448, 0, 2),
   (1982091568, 1985156128, 1985156128, 1, 1), (1919177008, 1983140128, 1983140128, 6, 10),
   (1948668208, 1985102608, 1985160208, 7, 12), (1917210928, 1981043488, 1981043488, 6, 10),
   (1967284528, 1982943808, 1982943808, 2, 0), (1951555888, 1985221408, 1985221408, 12, 7),
   (1965318448, 1982940448, 1982940448, 11, 11), (1918132528, 1981104928, 1984110928, 8, 5),
   (1948606768, 1983984928, 1983984928, 11, 11), (1917149488, 1983992608, 1983992608, 5, 6),
   (1985221168, 1984242448, 1984242448, 10, 12), (1969492528, 1982943808, 1982943808, 9, 9),
   (1984238128, 1984246048, 1984246048, 1, 1), (1952780848, 1983992608, 1983992608, 0, 2),
   (1967526448, 1983992608, 1983193408, 2, 0), (1951797808, 1983009808, 1983009808, 2, 2),
   (1985036848, 1985102608, 1985160208, 2, 2), (1969308208, 1985221408, 1985221408, 0, 2),
   (1981104688, 1983984928, 1983984928, 1, 1), (1902461488, 1981043488, 1981043488, 0, 2),
   (1964393008, 1983984928, 1982148928, 2, 0), (1901478448, 1982026768, 1982026768, 2, 2),
   (1983992368, 1981104928, 1984110928, 12, 9), (1952535088, 1983009808, 1983009808, 6, 10),
   (1981043248, 1985221408, 1985221408, 5, 5), (1902400048, 1981104928, 1981104928, 0, 2),
   (1947619888, 1984246048, 1984246048, 5, 3), (1900433968, 1980912448, 1980912448, 6, 10),
   (1967219248, 1981104928, 1981104928, 4, 8), (1951490608, 1984246048, 1984246048, 12, 9),
   (1964270128, 1982940448, 1982026048, 2, 0), (1901355568, 1983201808, 1983201808, 9, 9),
   (1947558448, 1933710688, 1898275888, 3, 7), (1900372528, 1983984928, 1983984928, 5, 6),
   (1985090608, 1983140128, 1983140128, 1, 1), (1969361968, 1985028928, 1985028928, 0, 2),
   (1982141488, 1985102608, 1985160208, 11, 10), (1919226928, 1981895488, 1981895488, 0, 2),
   (1965429808, 1982943808, 1982943808, 4, 7), (1918243888, 1981104928, 1984110928, 11, 10),
   (1985029168, 1981043488, 1981043488, 1, 1), (1969300528, 1981043488, 1983127888, 1, 4),
   (1981097008, 1983992608, 1983992608, 1, 1), (1902453808, 1980912448, 1980912448, 0, 2),
   (1964385328, 1981104928, 1984110928, 3, 1), (1901470768, 1980978208, 1980978208, 3, 4),
   (1981895728, 1980978208, 1980978208, 1, 1), (1918981168, 1981104928, 1984110928, 1, 4),
   (1980912688, 1981104928, 1984110928, 9, 7), (1902269488, 1982943808, 1982943808, 6, 10),
   (1914065968, 1983992608, 1983992608, 4, 7), (1898337328, 1981895488, 1981895488, 4, 7),
   (1965122608, 1980912448, 1980912448, 2, 0), (1917936688, 1983992608, 1983992608, 3, 4),
   (1964139568, 1981895488, 1981895488, 2, 0), (1901225008, 1985102608, 1985160208, 9, 7),
   (1914004528, 1949377888, 1898337088, 0, 2), (1898275888, 1933710688, 1898275888, 0, 0),
   (1984042288, 1985102608, 1985102608, 10, 12), (1952585008, 1982943808, 1982943808, 8, 3),
   (1982076208, 1985167648, 1985167648, 1, 1), (1919161648, 1985028928, 1985028928, 7, 13),
   (1948652848, 1985221408, 1985221408, 10, 12), (1917195568, 1981043488, 1983127888, 6, 11),
   (1983980848, 1981104928, 1981104928, 1, 1), (1952523568, 1983992608, 1983193408, 1, 4),
   (1981031728, 1982943808, 1982943808, 7, 13), (1902388528, 1981895488, 1982932288, 1, 4),
   (1947608368, 1981104928, 1981104928, 13, 6), (1900422448, 1980978208, 1983005008, 6, 11),
   (1981891888, 1981100608, 1981100608, 7, 13), (1918977328, 1982943808, 1982943808, 13, 5),
   (1980908848, 1982940448, 1982940448, 1, 1), (1902265648, 1985028928, 1985028928, 1, 4),
   (1914062128, 1980912448, 1980912448, 7, 13), (1898333488, 1982940448, 1982026048, 9, 6),
   (1948345648, 1983984928, 1982148928, 7, 13), (1916888368, 1981104928, 1984110928, 6, 11),
   (1947362608, 1982940448, 1982026048, 7, 13), (1900176688, 1981100608, 1981100608, 4, 8),
   (1913939248, 1981895488, 1981895488, 7, 13), (1898210608, 1981887808, 1981887808, 7, 13),
   (1967265328, 1981895488, 1982932288, 2, 0), (1951536688, 1981104928, 1981104928, 10, 12),
   (1965299248, 1985028928, 1985028928, 11, 10), (1918113328, 1982943808, 1982943808, 3, 4),
   (1948587568, 1981043488, 1981043488, 10, 12), (1917130288, 1980912448, 1980912448, 10, 12),
   (1967203888, 1980978208, 1983005008, 3, 1), (1951475248, 1980912448, 1980912448, 3, 4),
   (1964254768, 1981100608, 1981100608, 13, 6), (1901340208, 1982940448, 1982940448, 5, 7),
   (1947543088, 1983984928, 1983984928, 12, 8), (1900357168, 1982026768, 1983005968, 8, 6),
   (1965114928, 1982940448, 1982026048, 8, 8), (1917929008, 1981895488, 1981895488, 3, 4),
   (1964131888, 1981887808, 1981887808, 2, 0), (1901217328, 1982940448, 1982026048, 3, 4),
   (1913996848, 1933710688, 1898275888, 7, 12), (1898268208, 1982026768, 1982026768, 8, 8),
   (1948341808, 1982026768, 1982026768, 6, 10), (1916884528, 1980978208, 1980978208, 6, 10),
   (1947358768, 1983201808, 1983201808, 8, 3), (1900172848, 1982940448, 1982940448, 12, 5),
   (1913935408, 1985102608, 1985160208, 8, 5), (1898206768, 1982940448, 1982026048, 6, 10),
   (1985159488, 1982943808, 1982943808, 11, 9), (1969430848, 1984242448, 1984242448, 8, 12),
   (1983193408, 1983992608, 1983193408, 0, 0), (1936007488, 1983009808, 1983009808, 0, 2),
   (1966481728, 1984246048, 1984246048, 3, 1), (1935024448, 1983992608, 1983992608, 2, 2),
   (1985098048, 1985221408, 1985221408, 2, 2), (1969369408, 1985102608, 1985160208, 0, 2),
   (1982148928, 1983984928, 1982148928, 0, 0), (1919234368, 1982026768, 1982026768, 0, 2),
   (1965437248, 1983984928, 1983984928, 3, 1), (1918251328, 1981043488, 1981043488, 2, 2),
   (1983009088, 1981104928, 1981104928, 6, 8), (1935823168, 1984246048, 1984246048, 13, 9),
   (1982026048, 1982940448, 1982026048, 0, 0), (1919111488, 1983201808, 1983201808, 11, 9),
   (1931891008, 1933710688, 1898275888, 1, 7), (1916162368, 1983984928, 1983984928, 7, 6),
   (1966235968, 1981104928, 1984110928, 13, 9), (1934778688, 1983009808, 1983009808, 4, 10),
   (1965252928, 1985221408, 1985221408, 7, 5), (1918067008, 1981104928, 1981104928, 2, 2),
   (1931829568, 1984246048, 1984246048, 7, 3), (1916100928, 1980912448, 1980912448, 4, 10),
   (1985155648, 1985102608, 1985102608, 2, 2), (1969427008, 1985221408, 1985221408, 3, 1),
   (1983189568, 1981104928, 1981104928, 9, 11), (1936003648, 1981104928, 1984110928, 7, 3),
   (1966477888, 1983009808, 1983009808, 10, 6), (1935020608, 1984246048, 1984246048, 9, 11),
   (1985032768, 1985167648, 1985167648, 9, 11), (1969304128, 1985156128, 1985156128, 0, 2),
   (1981100608, 1981100608, 1981100608, 0, 0), (1902457408, 1980978208, 1980978208, 0, 2),
   (1964388928, 1982022928, 1982022928, 10, 8), (1901474368, 1985102608, 1985160208, 3, 4),
   (1982943808, 1982943808, 1982943808, 0, 0), (1935757888, 1985221408, 1985221408, 13, 7),
   (1980977728, 1982940448, 1982940448, 9, 11), (1902334528, 1981104928, 1984110928, 10, 5),
   (1930842688, 1983984928, 1983984928, 9, 11), (1899385408, 1983992608, 1983992608, 7, 6),
   (1966170688, 1985221408, 1985221408, 9, 11), (1934713408, 1984242448, 1984242448, 2, 2),
   (1964204608, 1985156128, 1985156128, 3, 1), (1901290048, 1983140128, 1983140128, 4, 10),
   (1930781248, 1985102608, 1985160208, 5, 12), (1899323968, 1981043488, 1981043488, 4, 10),
   (1985090368, 1981043488, 1983127888, 1, 1), (1969361728, 1981043488, 1981043488, 1, 4),
   (1982141248, 1981104928, 1984110928, 1, 1), (1919226688, 1980978208, 1980978208, 1, 4),
   (1965429568, 1983992608, 1983992608, 3, 1), (1918243648, 1980912448, 1980912448, 2, 2),
   (1985028928, 1985028928, 1985028928, 0, 0), (1969300288, 1983140128, 1983140128, 1, 4),
   (1981096768, 1982943808, 1982943808, 6, 7), (1902453568, 1981104928, 1984110928, 9, 10),
   (1964385088, 1985102608, 1985160208, 9, 10), (1901470528, 1981895488, 1981895488, 2, 2),
   (1981895488, 1981895488, 1981895488, 0, 0), (1918980928, 1985102608, 1985160208, 11, 7),
   (1980912448, 1980912448, 1980912448, 0, 0), (1902269248, 1983992608, 1983992608, 1, 4),
   (1914065728, 1933710688, 1898275888, 0, 2), (1898337088, 1949377888, 1898337088, 0, 0),
   (1965122368, 1981104928, 1984110928, 11, 7), (1917936448, 1982943808, 1982943808, 4, 10),
   (1964139328, 1980978208, 1980978208, 3, 1), (1901224768, 1981104928, 1984110928, 3, 4),
   (1914004288, 1981895488, 1981895488, 4, 10), (1898275648, 1983992608, 1983992608, 4, 10),
   (1982993728, 1980978208, 1983005008, 1, 1), (1935807808, 1980912448, 1980912448, 1, 4),
   (1982010688, 1981100608, 1981100608, 12, 6), (1919096128, 1982940448, 1982940448, 7, 7),
   (1931875648, 1983984928, 1983984928, 13, 8), (1916147008, 1982026768, 1983005968, 10, 6),
   (1982932288, 1981895488, 1982932288, 0, 0), (1935746368, 1981104928, 1981104928, 8, 12),
   (1980966208, 1985028928, 1985028928, 9, 10), (1902323008, 1982943808, 1982943808, 1, 4),
   (1930831168, 1981043488, 1981043488, 8, 12), (1899373888, 1980912448, 1980912448, 8, 12),
   (1981887808, 1981887808, 1981887808, 0, 0), (1918973248, 1982940448, 1982026048, 1, 4),
   (1980904768, 1982940448, 1982026048, 10, 8), (1902261568, 1981895488, 1981895488, 1, 4),
   (1914058048, 1982026768, 1982026768, 10, 8), (1898329408, 1933710688, 1898275888, 5, 12),
   (1931568448, 1983201808, 1983201808, 10, 3), (1915839808, 1982940448, 1982940448, 13, 5),
   (1930585408, 1982026768, 1982026768, 4, 10), (1899128128, 1980978208, 1980978208, 4, 10),
   (1913873728, 1982940448, 1982026048, 4, 10), (1898145088, 1985102608, 1985160208, 10, 5),
   (1966216768, 1981104928, 1981104928, 3, 1), (1934759488, 1983992608, 1983193408, 3, 4),
   (1965233728, 1982943808, 1982943808, 5, 13), (1918047808, 1981895488, 1982932288, 3, 4),
   (1931810368, 1981104928, 1981104928, 12, 6), (1916081728, 1980978208, 1983005008, 4, 11),
   (1966155328, 1985102608, 1985102608, 8, 12), (1934698048, 1982943808, 1982943808, 10, 3),
   (1964189248, 1985167648, 1985167648, 3, 1), (1901274688, 1985028928, 1985028928, 5, 13),
   (1930765888, 1985221408, 1985221408, 8, 12), (1899308608, 1981043488, 1983127888, 4, 11),
   (1965110848, 1982940448, 1982940448, 3, 1), (1917924928, 1985028928, 1985028928, 3, 4),
   (1964127808, 1981100608, 1981100608, 5, 13), (1901213248, 1982943808, 1982943808, 12, 5),
   (1913992768, 1982940448, 1982026048, 11, 6), (1898264128, 1980912448, 1980912448, 5, 13),
   (1931564608, 1982940448, 1982026048, 5, 13), (1915835968, 1981100608, 1981100608, 6, 8),
   (1930581568, 1983984928, 1982148928, 5, 13), (1899124288, 1981104928, 1984110928, 4, 11),
   (1913869888, 1981887808, 1981887808, 5, 13), (1898141248, 1981895488, 1981895488, 5, 13),
   (1984110928, 1981104928, 1984110928, 0, 0), (1952653648, 1983201808, 1983201808, 1, 4),
   (1983127888, 1981043488, 1983127888, 0, 0), (1935941968, 1982026768, 1983005968, 0, 2),
   (1949704528, 1983984928, 1982148928, 4, 5), (1933975888, 1980912448, 1980912448, 9, 8),
   (1984049488, 1981104928, 1981104928, 7, 10), (1952592208, 1983140128, 1983140128, 8, 3),
   (1982083408, 1985102608, 1985102608, 4, 3), (1919168848, 1982022928, 1982022928, 0, 2),
   (1948660048, 1983201808, 1983201808, 7, 10), (1917202768, 1983984928, 1983984928, 6, 12),
   (1983005008, 1980978208, 1983005008, 0, 0), (1935819088, 1985102608, 1985102608, 1, 4),
   (1982021968, 1981100608, 1981100608, 10, 7), (1919107408, 1984246288, 1984246288, 10, 7),
   (1931886928, 1981887808, 1981887808, 9, 6), (1916158288, 1898198368, 1898198368, 5, 8),
   (1949458768, 1981043488, 1983127888, 8, 3), (1933730128, 1983992608, 1983193408, 4, 8),
   (1948475728, 1983984928, 1982148928, 10, 7), (1917018448, 1984246048, 1984246048, 10, 7),
   (1931764048, 1933710688, 1933710688, 3, 13), (1916035408, 1983984928, 1982148928, 9, 3),
   (1984107088, 1983984928, 1982148928, 1, 1), (1952649808, 1983984928, 1983984928, 0, 2),
   (1983124048, 1985221408, 1985221408, 4, 3), (1935938128, 1982940448, 1982940448, 0, 2),
   (1949700688, 1984246048, 1984246048, 4, 5), (1933972048, 1933710688, 1933710688, 5, 6),
   (1983984208, 1981100608, 1981100608, 1, 1), (1952526928, 1982022928, 1982022928, 6, 12),
   (1981035088, 1985167648, 1985167648, 7, 10), (1902391888, 1981100608, 1981100608, 9, 9),
   (1947611728, 1984246288, 1984246288, 4, 5), (1900425808, 1981887808, 1981887808, 6, 12),
   (1982939728, 1982940448, 1982026048, 12, 9), (1935753808, 1985156128, 1985156128, 4, 6),
   (1980973648, 1981887808, 1981887808, 1, 1), (1902330448, 1985102608, 1985160208, 4, 6),
   (1930838608, 1898198368, 1898198368, 3, 13), (1899381328, 1933710688, 1898275888, 11, 3),
   (1949393488, 1983984928, 1982148928, 12, 9), (1933664848, 1985102608, 1985102608, 11, 5),
   (1947427408, 1898198368, 1898198368, 11, 6), (1900241488, 1983201808, 1983201808, 4, 8),
   (1930715728, 1981887808, 1981887808, 8, 7), (1899258448, 1983984928, 1983984928, 8, 7),
   (1984041808, 1983992608, 1983193408, 1, 1), (1952584528, 1981104928, 1981104928, 1, 4),
   (1982075728, 1982943808, 1982943808, 13, 8), (1919161168, 1981100608, 1981100608, 7, 11),
   (1948652368, 1981104928, 1984110928, 6, 13), (1917195088, 1983984928, 1982148928, 7, 11),
   (1983980368, 1982943808, 1982943808, 8, 6), (1952523088, 1985102608, 1985102608, 10, 9),
   (1981031248, 1985028928, 1985028928, 1, 1), (1902388048, 1982940448, 1982940448, 1, 4),
   (1947607888, 1981100608, 1981100608, 4, 5), (1900421968, 1982940448, 1982026048, 7, 11),
   (1981891408, 1985028928, 1985028928, 7, 11), (1918976848, 1985167648, 1985167648, 1, 4),
   (1980908368, 1981895488, 1982932288, 1, 1), (1902265168, 1982943808, 1982943808, 7, 11),
   (1914061648, 1981887808, 1981887808, 7, 11), (1898333008, 1981895488, 1981895488, 7, 11),
   (1948345168, 1981043488, 1983127888, 6, 13), (1916887888, 1985221408, 1985221408, 10, 9),
   (1947362128, 1980978208, 1983005008, 6, 13), (1900176208, 1981104928, 1981104928, 13, 3),
   (1913938768, 1982940448, 1982026048, 9, 3), (1898210128, 1980912448, 1980912448, 7, 11),
   (1982993488, 1981104928, 1981104928, 8, 9), (1935807568, 1981895488, 1982932288, 0, 2),
   (1982010448, 1982940448, 1982026048, 1, 1), (1919095888, 1981887808, 1981887808, 0, 2),
   (1931875408, 1982940448, 1982940448, 13, 8), (1916146768, 1983201808, 1983201808, 10, 6),
   (1982932048, 1980912448, 1980912448, 1, 1), (1935746128, 1980978208, 1983005008, 1, 4),
   (1980965968, 1981895488, 1981895488, 1, 1), (1902322768, 1982940448, 1982026048, 10, 5),
   (1930830928, 1980978208, 1980978208, 4, 7), (1899373648, 1982026768, 1982026768, 4, 7),
   (1981887568, 1982940448, 1982940448, 7, 10), (1918973008, 1981100608, 1981100608, 12, 3),
   (1980904528, 1982943808, 1982943808, 1, 1), (1902261328, 1985028928, 1985028928, 9, 7),
   (1914057808, 1985102608, 1985160208, 10, 8), (1898329168, 1982940448, 1982026048, 4, 7),
   (1931568208, 1982026768, 1983005968, 10, 3), (1915839568, 1983984928, 1983984928, 13, 5),
   (1930585168, 1980912448, 1980912448, 8, 9), (1899127888, 1981043488, 1981043488, 8, 9),
   (1913873488, 1933710688, 1898275888, 5, 9), (1898144848, 1982026768, 1982026768, 10, 5),
   (1949439568, 1983992608, 1983193408, 8, 3), (1933710928, 1949377888, 1949377888, 0, 2),
   (1948456528, 1980912448, 1980912448, 12, 6), (1916999248, 1933710688, 1933710688, 11, 8),
   (1931744848, 1981895488, 1982932288, 4, 9), (1916016208, 1985102608, 1985102608, 5, 7),
   (1949378128, 1933710688, 1933710688, 0, 2), (1933649488, 1981895488, 1982932288, 8, 6),
   (1947412048, 1981887808, 1981887808, 12, 8), (1900226128, 1982940448, 1982940448, 8, 6),
   (1930700368, 1982940448, 1982940448, 4, 9), (1899243088, 1982026768, 1983005968, 4, 9),
   (1948333648, 1982026768, 1983005968, 6, 12), (1916876368, 1982940448, 1982940448, 6, 12),
   (1947350608, 1985102608, 1985102608, 7, 10), (1900164688, 1981895488, 1982932288, 6, 12),
   (1913927248, 1985156128, 1985156128, 8, 5), (1898198608, 1980978208, 1983005008, 5, 7),
   (1931560528, 1982940448, 1982940448, 10, 3), (1915831888, 1981887808, 1981887808, 13, 5),
   (1930577488, 1933710688, 1933710688, 9, 5), (1899120208, 1980912448, 1980912448, 13, 3),
   (1913865808, 1898198368, 1898198368, 0, 2), (1898137168, 1980978208, 1980978208, 8, 8),
   (1967333728, 1985221408, 1985221408, 6, 3), (1951605088, 1982940448, 1982940448, 2, 2),
   (1966350688, 1983984928, 1982148928, 3, 1), (1934893408, 1983984928, 1983984928, 2, 2),
   (1949639008, 1933710688, 1933710688, 7, 6), (1933910368, 1984246048, 1984246048, 6, 5),
   (1967272288, 1982940448, 1982026048, 13, 9), (1951543648, 1985156128, 1985156128, 6, 6),
   (1965306208, 1981887808, 1981887808, 3, 1), (1918120288, 1985102608, 1985160208, 6, 6),
   (1948594528, 1898198368, 1898198368, 1, 13), (1917137248, 1933710688, 1898275888, 9, 3),
   (1966227808, 1981100608, 1981100608, 3, 1), (1934770528, 1982022928, 1982022928, 4, 12),
   (1965244768, 1985167648, 1985167648, 5, 10), (1918058848, 1981100608, 1981100608, 11, 9),
   (1931821408, 1984246288, 1984246288, 6, 5), (1916092768, 1981887808, 1981887808, 4, 12),
   (1949454688, 1985102608, 1985102608, 9, 5), (1933726048, 1983984928, 1982148928, 13, 9),
   (1948471648, 1981887808, 1981887808, 10, 7), (1917014368, 1983984928, 1983984928, 10, 7),
   (1931759968, 1898198368, 1898198368, 9, 6), (1916031328, 1983201808, 1983201808, 6, 8),
   (1967329888, 1981043488, 1983127888, 2, 0), (1951601248, 1982026768, 1983005968, 2, 2),
   (1966346848, 1981104928, 1984110928, 2, 0), (1934889568, 1983201808, 1983201808, 3, 4),
   (1949635168, 1980912448, 1980912448, 11, 8), (1933906528, 1983984928, 1982148928, 6, 5),
   (1967207008, 1980978208, 1983005008, 2, 0), (1951478368, 1985102608, 1985102608, 3, 4),
   (1964257888, 1981100608, 1981100608, 8, 7), (1901343328, 1984246288, 1984246288, 8, 7),
   (1947546208, 1981887808, 1981887808, 11, 6), (1900360288, 1898198368, 1898198368, 7, 8),
   (1966162528, 1981104928, 1981104928, 5, 10), (1934705248, 1983140128, 1983140128, 10, 3),
   (1964196448, 1985102608, 1985102608, 6, 3), (1901281888, 1982022928, 1982022928, 2, 2),
   (1930773088, 1983201808, 1983201808, 5, 10), (1899315808, 1983984928, 1983984928, 4, 12),
   (1949389408, 1983992608, 1983193408, 6, 8), (1933660768, 1981043488, 1983127888, 10, 3),
   (1947423328, 1933710688, 1933710688, 1, 13), (1900237408, 1983984928, 1982148928, 11, 3),
   (1930711648, 1983984928, 1982148928, 8, 7), (1899254368, 1984246048, 1984246048, 8, 7),
   (1967264608, 1980912448, 1980912448, 3, 1), (1951535968, 1980978208, 1983005008, 3, 4),
   (1965298528, 1981895488, 1981895488, 3, 1), (1918112608, 1982940448, 1982026048, 8, 5),
   (1948586848, 1980978208, 1980978208, 6, 7), (1917129568, 1982026768, 1982026768, 6, 7),
   (1967203168, 1981104928, 1981104928, 10, 9), (1951474528, 1981895488, 1982932288, 2, 2),
   (1964254048, 1982940448, 1982026048, 3, 1), (1901339488, 1981887808, 1981887808, 2, 2),
   (1947542368, 1982940448, 1982940448, 12, 8), (1900356448, 1983201808, 1983201808, 8, 6),
   (1965114208, 1982943808, 1982943808, 3, 1), (1917928288, 1985028928, 1985028928, 11, 7),
   (1964131168, 1982940448, 1982940448, 5, 10), (1901216608, 1981100608, 1981100608, 13, 3),
   (1913996128, 1982940448, 1982026048, 6, 7), (1898267488, 1985102608, 1985160208, 8, 8),
   (1948341088, 1980912448, 1980912448, 10, 9), (1916883808, 1981043488, 1981043488, 10, 9),
   (1947358048, 1982026768, 1983005968, 8, 3), (1900172128, 1983984928, 1983984928, 12, 5),
   (1913934688, 1982026768, 1982026768, 8, 5), (1898206048, 1933710688, 1898275888, 7, 9),
   (1966216288, 1982943808, 1982943808, 10, 6), (1934759008, 1985102608, 1985102608, 8, 9),
   (1965233248, 1985028928, 1985028928, 3, 1), (1918047328, 1982940448, 1982940448, 3, 4),
   (1931809888, 1981100608, 1981100608, 6, 5), (1916081248, 1982940448, 1982026048, 5, 11),
   (1966154848, 1983992608, 1983193408, 3, 1), (1934697568, 1981104928, 1981104928, 3, 4),
   (1964188768, 1982943808, 1982943808, 12, 8), (1901274208, 1981100608, 1981100608, 5, 11),
   (1930765408, 1981104928, 1984110928, 4, 13), (1899308128, 1983984928, 1982148928, 5, 11),
   (1965110368, 1981895488, 1982932288, 3, 1), (1917924448, 1982943808, 1982943808, 5, 11),
   (1964127328, 1985028928, 1985028928, 5, 11), (1901212768, 1985167648, 1985167648, 3, 4),
   (1913992288, 1981895488, 1981895488, 5, 11), (1898263648, 1981887808, 1981887808, 5, 11),
   (1931564128, 1980978208, 1983005008, 4, 13), (1915835488, 1981104928, 1981104928, 12, 3),
   (1930581088, 1981043488, 1983127888, 4, 13), (1899123808, 1985221408, 1985221408, 8, 9),
   (1913869408, 1980912448, 1980912448, 5, 11), (1898140768, 1982940448, 1982026048, 11, 3),
   (1949439328, 1981895488, 1982932288, 8, 3), (1933710688, 1933710688, 1933710688, 0, 0),
   (1948456288, 1982940448, 1982940448, 6, 9), (1916999008, 1982026768, 1983005968, 6, 9),
   (1931744608, 1981887808, 1981887808, 13, 8), (1916015968, 1982940448, 1982940448, 10, 6),
   (1949377888, 1949377888, 1949377888, 0, 0), (1933649248, 1983992608, 1983193408, 8, 6),
   (1947411808, 1981895488, 1982932288, 6, 9), (1900225888, 1985102608, 1985102608, 7, 7),
   (1930700128, 1980912448, 1980912448, 13, 6), (1899242848, 1933710688, 1933710688, 9, 8),
   (1948333408, 1933710688, 1933710688, 11, 5), (1916876128, 1980912448, 1980912448, 12, 3),
   (1947350368, 1982940448, 1982940448, 8, 3), (1900164448, 1981887808, 1981887808, 12, 5),
   (1913927008, 1980978208, 1980978208, 8, 5), (1898198368, 1898198368, 1898198368, 0, 0),
   (1931560288, 1985102608, 1985102608, 5, 10), (1915831648, 1981895488, 1982932288, 4, 12),
   (1930577248, 1982026768, 1983005968, 4, 12), (1899119968, 1982940448, 1982940448, 4, 12),
   (1913865568, 1980978208, 1983005008, 5, 10), (1898136928, 1985156128, 1985156128, 8, 8)]

/-- A digit. -/
def dig (c i : Nat) : Nat := c / 16 ^ i % 16

/-- The row with these digits. -/
def decode (b c : Nat) : Row := (List.range b).map (dig c)

/-- The number with the digits `f 0, ..., f (n - 1)`. -/
noncomputable def encode (f : Nat → Nat) : Nat → Nat := fun n => Nat.rec 0 (fun k ih => ih + f k * 16 ^ k) n

/-- `List.all`, written for evaluation. -/
noncomputable def allB {α : Type} (p : α → Bool) : List α → Bool :=
  fun l => List.rec true (fun a _ ih => Bool.rec false ih (p a)) l

/-- The test for all numbers below a bound. -/
noncomputable def allN (p : Nat → Bool) : Nat → Bool := fun n => Nat.rec true (fun k ih => Bool.rec false ih (p k)) n

/-- The value at a key, 0 if there is none. -/
noncomputable def lookB (key : Nat) : List (Nat × Nat) → Nat :=
  fun l => List.rec 0 (fun a _ ih => Bool.rec ih a.2 (Nat.beq a.1 key)) l

/-- The element with that number. -/
noncomputable def nthB : List Nat → Nat → Nat :=
  fun l => List.rec (fun _ => 0) (fun a _ ih i => Nat.rec a (fun k _ => ih k) i) l

theorem allB_iff {α : Type} {p : α → Bool} {l : List α} : allB p l = true ↔ ∀ a ∈ l, p a = true := by
  induction l with
  | nil => simp [allB]
  | cons a l ih =>
    have : allB p (a :: l) = (p a && allB p l) := by
      show (Bool.rec false (allB p l) (p a) : Bool) = _
      cases p a <;> rfl
    rw [this]; simp [ih]

theorem allN_iff {p : Nat → Bool} {n : Nat} : allN p n = true ↔ ∀ i, i < n → p i = true := by
  induction n with
  | zero => simp [allN]
  | succ n ih =>
    have : allN p (n + 1) = (p n && allN p n) := by
      show (Bool.rec false (allN p n) (p n) : Bool) = _
      cases p n <;> rfl
    rw [this, Bool.and_eq_true, ih]
    constructor
    · rintro ⟨h1, h2⟩ i hi
      by_cases h : i = n
      · rw [h]; exact h1
      · exact h2 i (by omega)
    · intro h; exact ⟨h n (by omega), fun i hi => h i (by omega)⟩

theorem encode_congr {f g : Nat → Nat} {n : Nat} (h : ∀ i, i < n → f i = g i) : encode f n = encode g n := by
  induction n with
  | zero => rfl
  | succ n ih =>
    show encode f n + f n * 16 ^ n = encode g n + g n * 16 ^ n
    rw [ih (fun i hi => h i (by omega)), h n (by omega)]

theorem nthB_mem {l : List Nat} {i : Nat} (h : i < l.length) : nthB l i ∈ l := by
  induction l generalizing i with
  | nil => simp at h
  | cons a l ih =>
    cases i with
    | zero => exact List.mem_cons_self
    | succ i => exact List.mem_cons_of_mem _ (ih (i := i) (by simpa using h))

theorem lookB_mem {key : Nat} {l : List (Nat × Nat)} (h : lookB key l ≠ 0) : (key, lookB key l) ∈ l := by
  induction l with
  | nil => simp [lookB] at h
  | cons a l ih =>
    have e : lookB key (a :: l) = if a.1 = key then a.2 else lookB key l := by
      show (Bool.rec (lookB key l) a.2 (Nat.beq a.1 key) : Nat) = _
      by_cases c : a.1 = key
      · rw [if_pos c, c, Nat.beq_refl]
      · rw [if_neg c, show Nat.beq a.1 key = false from by
          cases hq : Nat.beq a.1 key with
          | false => rfl
          | true => exact absurd (Nat.eq_of_beq_eq_true hq) c]
    rw [e] at h ⊢
    split at h
    · rename_i c; rw [if_pos c, ← c]; exact List.mem_cons_self
    · rename_i c; rw [if_neg c]; exact List.mem_cons_of_mem _ (ih h)

/-! ### The checks -/

/-- The moved row has no other name: if the tenor and the bell `c` are at home the row has the name `s` or none. -/
noncomputable def checkMove (b c : Nat) (kn : List (Nat × Nat)) (x s d e : Nat) : Bool :=
  Bool.rec true
    (Bool.rec true (Bool.rec (Nat.beq (lookB (encode (fun i => dig d (dig x (dig e i))) b) kn) 0) true
      (Nat.beq (lookB (encode (fun i => dig d (dig x (dig e i))) b) kn) s))
      (Nat.beq (dig d (dig x (dig e c))) c))
    (Nat.beq (dig d (dig x (dig e (b - 1)))) (b - 1))

/-- All moves. -/
noncomputable def checkMoves (b c : Nat) (pbs : List Nat) (kn src : List (Nat × Nat)) : Bool :=
  allB (fun x => allB (fun d => allB (fun e => checkMove b c kn x.1 x.2 d e) pbs) pbs) src

/-- The named rows have the treble and the bells `t` and `c` at home, are found under their names, and the inverses are among the
sources with the same names. -/
noncomputable def checkKnown (b t c : Nat) (kn src : List (Nat × Nat)) : Bool :=
  allB (fun x => Nat.beq (dig x.1 0) 0 && (Nat.beq (dig x.1 t) t && (Nat.beq (dig x.1 c) c && (Nat.beq (encode (dig x.1) b) x.1 &&
    (Nat.beq (lookB x.1 kn) x.2 && (!(Nat.beq x.2 0) &&
      !(allB (fun y => !(Nat.beq y.2 x.2 && allN (fun i => Nat.beq (dig y.1 (dig x.1 i)) i) b)) src))))))) kn

set_option maxRecDepth 100000

theorem moves8_ok : checkMoves 8 7 pbs8 known8 (known8 ++ inverse8) = true := by decide +kernel
theorem moves10_ok : checkMoves 10 8 pbs10 known10 known10 = true := by decide +kernel
theorem moves12_ok : checkMoves 12 10 pbs12 known12 known12 = true := by decide +kernel
theorem known8_ok : checkKnown 8 7 7 known8 (known8 ++ inverse8) = true := by decide +kernel
theorem known10_ok : checkKnown 10 9 8 known10 known10 = true := by decide +kernel
theorem known12_ok : checkKnown 12 11 10 known12 known12 = true := by decide +kernel

/-- The rows on eight bells are moved as said. -/
noncomputable def checkEight : Bool :=
  allB (fun w => match w with
    | (x, r, t, i, j) =>
      ((Nat.beq r t || allN (fun m => Nat.beq (dig r (dig t m)) m) 8) && (!(Nat.beq (lookB r known8) 0) &&
        (Nat.blt i 14 && (Nat.blt j 14 &&
          allN (fun m => Nat.beq (dig x m) (dig (nthB pbs8 i) (dig t (dig (nthB pbs8 j) m)))) 8))))) moves8

theorem eight_ok : checkEight = true := by decide +kernel

end Falseness
end Ringing
