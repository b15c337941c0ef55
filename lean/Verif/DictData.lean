import Verif.Print

/-!
# `DictLCAlphaSmall` (src/dict.cpp 52-305), the word list used by `StampDictLCAlphaSmall` and JSON strings
-/

namespace BS

/-- dict.cpp 52-305: the words, in order. -/
def lcAlphaSmallStrings : List String := [
  "a", "abundances", "achieves", "adjunct", "affair", "aired", "ally", "amphitheatre",
  "annoyance", "appalled", "arbitrators", "artichokes", "assisting", "auctioneers", "awaked",
  "balanced", "barbiturates", "bawdier", "beggaring", "berserk", "biographies", "blazer",
  "blown", "bond", "boundless", "breaded", "broadsided", "buggy", "burping", "caches", "caned",
  "cards", "castoffs", "cellar", "chant", "cheetahs", "choral", "citizen", "cleft", "clues",
  "coined", "commanding", "competences", "concentrate", "configures", "conserve", "contemptuous",
  "convertors", "corpulent", "counterparts", "cranking", "crippled", "crusades", "cursing",
  "dams", "debate", "dedication", "deign", "denomination", "descents", "detonate", "differences",
  "dirt", "discouragement", "dismally", "dissented", "divested", "doorstep", "dread", "drunks",
  "dying", "edifices", "elegant", "emergency", "encyclopedia", "enshrine", "epitaph",
  "eternities", "excavates", "exists", "extends", "fact", "fashionably", "fellow", "fifteen",
  "firms", "flavourings", "floured", "followers", "forestalled", "fouler", "freshens",
  "fulfilling", "galaxy", "gaudier", "germs", "gleam", "godfather", "graffiti", "greened",
  "grouping", "gunshots", "halved", "harmonic", "headrest", "hems", "hims", "holy", "horrify",
  "humans", "hyphenates", "illustration", "impersonated", "inadequate", "increase",
  "industrious", "infuriate", "inquiry", "insulated", "intern", "intuitive", "irreverence",
  "jaws", "journals", "kegs", "kneecap", "lamentations", "launder", "lefts", "liberated",
  "lingoes", "lobes", "lords", "lushes", "maintaining", "mannequins", "mascot", "meadows", "men",
  "miaows", "minds", "misjudge", "modernise", "mop", "mourners", "muscles", "narrations",
  "neglects", "nightgowns", "nostalgia", "nymph", "oceans", "ooze", "ore", "outlasted",
  "overgrowing", "overwriting", "pamper", "pardon", "pastiche", "pearl", "people", "perplexity",
  "phenomenal", "pigged", "pivots", "pleasured", "pokers", "portables", "powders", "preface",
  "pretzels", "procedures", "prom", "protective", "puddles", "purr", "queasier", "racquets",
  "ranks", "readable", "receptionist", "recuperated", "refrigerate", "reiterate", "reminisces",
  "replenishes", "resemblances", "resulted", "reverenced", "ridiculing", "robots", "route",
  "rustlers", "salves", "savour", "schoolboy", "scrounging", "sedating", "separates", "shakiest",
  "shined", "shrewdness", "significance", "sitters", "slakes", "slogged", "smoothest",
  "snowfalls", "solidifies", "sow", "speeches", "spongiest", "squalled", "stammer", "stealthy",
  "stitches", "strangers", "stubbiest", "subside", "suitably", "supplemented", "swampiest",
  "sympathetically", "taken", "tattled", "temperate", "testicle", "thirteenths", "tickles",
  "tittered", "tormentors", "tragic", "trappings", "triggers", "trusty", "twigged",
  "unburdening", "undeserved", "unite", "unseemly", "upstream", "valved", "verbiage",
  "vindicating", "vortexes", "want", "waxes", "wets", "whom", "wipes", "woolliest", "wrinkles",
  "zanier"]

/-- The dictionary as `std::vector<std::string>`. [dict.h 30, dict.cpp] -/
def lcAlphaSmall : List Bytes := lcAlphaSmallStrings.map str

end BS
